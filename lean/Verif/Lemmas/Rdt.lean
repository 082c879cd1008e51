import Verif.Spec.Tensor
import Verif.Lemmas.Kernel
import Mathlib.Analysis.SpecialFunctions.Complex.LogDeriv
import Mathlib.MeasureTheory.Integral.IntervalIntegral.FundThmCalculus
import Mathlib.Analysis.Calculus.Deriv.Mul
import Mathlib.Analysis.Calculus.Deriv.Inv
import Mathlib.Tactic.FunProp

/-! The closed form of the RDT coefficients used by the code solves the RDT equations. -/

namespace Verif
open Verif.Spec

noncomputable section

/-- `x + i y` whose argument is the arctangent factor, as a function of the strain `b`, initial `K = k30`. -/
def atPath (k1 k2 K b : ℝ) : ℂ :=
  ⟨(k1 * k1 + k2 * k2 + K * K) - K * k1 * b, b * k1 * Real.sqrt (k1 * k1 + k2 * k2)⟩

theorem shearSq_pos {k1 : ℝ} (h : k1 ≠ 0) (k2 K t : ℝ) : 0 < shearSq k1 k2 K t := by
  unfold shearSq; positivity

theorem atPath_slit {k1 : ℝ} (h : k1 ≠ 0) (k2 K b : ℝ) : atPath k1 k2 K b ∈ Complex.slitPlane := by
  have hs : 0 < k1 * k1 + k2 * k2 := by nlinarith [mul_self_pos.2 h, mul_self_nonneg k2]
  rcases eq_or_ne b 0 with hb | hb
  · left
    subst hb
    simp only [atPath, mul_zero, sub_zero]
    nlinarith [mul_self_nonneg K]
  · right
    simp only [atPath]
    exact mul_ne_zero (mul_ne_zero hb h) (Real.sqrt_pos.2 hs).ne'

theorem hasDerivAt_arg {k1 : ℝ} (h : k1 ≠ 0) (k2 K b : ℝ) :
    HasDerivAt (fun b => Complex.arg (atPath k1 k2 K b))
      (k1 * Real.sqrt (k1 * k1 + k2 * k2) / shearSq k1 k2 K b) b := by
  have hs : 0 < k1 * k1 + k2 * k2 := by nlinarith [mul_self_pos.2 h, mul_self_nonneg k2]
  set r := Real.sqrt (k1 * k1 + k2 * k2) with hr
  have hrr : r * r = k1 * k1 + k2 * k2 := Real.mul_self_sqrt hs.le
  have hpath : HasDerivAt (fun b : ℝ => atPath k1 k2 K b) (⟨-(K * k1), k1 * r⟩ : ℂ) b := by
    have e : (fun b : ℝ => atPath k1 k2 K b) = fun b : ℝ =>
        ((k1 * k1 + k2 * k2 + K * K : ℝ) : ℂ) + (b : ℂ) * (⟨-(K * k1), k1 * r⟩ : ℂ) := by
      funext x
      apply Complex.ext <;> simp [atPath, ← hr] <;> ring
    rw [e]
    have h1 : HasDerivAt (fun x : ℝ => (x : ℂ)) 1 b := Complex.ofRealCLM.hasDerivAt
    simpa using (h1.mul_const (⟨-(K * k1), k1 * r⟩ : ℂ)).const_add ((k1 * k1 + k2 * k2 + K * K : ℝ) : ℂ)
  have hlog := hpath.clog_real (atPath_slit h k2 K b)
  have him := (Complex.imCLM.hasFDerivAt.comp_hasDerivAt b hlog)
  have e2 : (fun b => Complex.arg (atPath k1 k2 K b)) =
      (fun b => Complex.imCLM (Complex.log (atPath k1 k2 K b))) := by
    funext x; simp [Complex.log_im]
  rw [e2]
  refine HasDerivAt.congr_deriv him ?_
  simp only [Complex.imCLM_apply, Complex.div_im, Complex.normSq_apply]
  have hq := (shearSq_pos h k2 K b).ne'
  have hk0 : (k1 * k1 + k2 * k2 + K * K) ≠ 0 := by nlinarith [mul_self_nonneg K]
  have hn : (atPath k1 k2 K b).re * (atPath k1 k2 K b).re + (atPath k1 k2 K b).im * (atPath k1 k2 K b).im
      = (k1 * k1 + k2 * k2 + K * K) * shearSq k1 k2 K b := by
    simp only [atPath, ← hr, shearSq]
    linear_combination (b * k1) ^ 2 * hrr
  rw [hn]
  simp only [atPath, ← hr]
  field_simp
  ring

/-- `C1` as a function of the strain. -/
def c1F (k1 k2 K b : ℝ) : ℝ :=
  b * (k1 * k1) * ((k1 * k1 + k2 * k2 + K * K) - 2 * (K * K) + b * k1 * K) /
    (shearSq k1 k2 K b * (k1 * k1 + k2 * k2))
/-- `C2` as a function of the strain. -/
def c2F (k1 k2 K b : ℝ) : ℝ :=
  k2 * (k1 * k1 + k2 * k2 + K * K) / (k1 * k1 + k2 * k2) ^ (3 / 2 : ℝ) * Complex.arg (atPath k1 k2 K b)

theorem hasDerivAt_shearSq (k1 k2 K b : ℝ) :
    HasDerivAt (fun b => shearSq k1 k2 K b) (-(2 * k1 * (K - k1 * b))) b := by
  unfold shearSq
  have h1 : HasDerivAt (fun b : ℝ => K - k1 * b) (-k1) b := by
    simpa using ((hasDerivAt_id b).const_mul k1).const_sub K
  have h2 := (h1.pow 2).const_add (k1 ^ 2 + k2 ^ 2)
  refine HasDerivAt.congr_deriv h2 ?_
  push_cast; ring

theorem rpow_three_half {s : ℝ} (hs : 0 < s) : s ^ (3 / 2 : ℝ) = s * Real.sqrt s := by
  rw [Real.sqrt_eq_rpow, show (3 / 2 : ℝ) = 1 + 1 / 2 by norm_num, Real.rpow_add hs, Real.rpow_one]

theorem hasDerivAt_c1F {k1 : ℝ} (h : k1 ≠ 0) (k2 K b : ℝ) :
    HasDerivAt (c1F k1 k2 K)
      (k1 ^ 2 * (k1 * k1 + k2 * k2 + K * K) * (2 * (k1 * k1 + k2 * k2) - shearSq k1 k2 K b) /
        ((k1 * k1 + k2 * k2) * shearSq k1 k2 K b ^ 2)) b := by
  have hs : 0 < k1 * k1 + k2 * k2 := by nlinarith [mul_self_pos.2 h, mul_self_nonneg k2]
  have hq := shearSq_pos h k2 K b
  have hnum : HasDerivAt (fun b => b * (k1 * k1) * ((k1 * k1 + k2 * k2 + K * K) - 2 * (K * K) + b * k1 * K))
      (k1 * k1 * ((k1 * k1 + k2 * k2 + K * K) - 2 * (K * K) + b * k1 * K) + b * (k1 * k1) * (k1 * K)) b := by
    have h1 : HasDerivAt (fun b : ℝ => b * (k1 * k1)) (k1 * k1) b := by
      simpa using (hasDerivAt_id b).mul_const (k1 * k1)
    have h2 : HasDerivAt (fun b : ℝ => (k1 * k1 + k2 * k2 + K * K) - 2 * (K * K) + b * k1 * K) (k1 * K) b := by
      have := (((hasDerivAt_id b).mul_const k1).mul_const K).const_add
        ((k1 * k1 + k2 * k2 + K * K) - 2 * (K * K))
      simpa using this
    exact h1.mul h2
  have hden := (hasDerivAt_shearSq k1 k2 K b).mul_const (k1 * k1 + k2 * k2)
  have hd := hnum.div hden (mul_pos hq hs).ne'
  unfold c1F
  refine HasDerivAt.congr_deriv hd ?_
  have hq' := hq.ne'
  rw [div_eq_div_iff (by positivity) (by positivity)]
  simp only [shearSq]
  ring

theorem hasDerivAt_c2F {k1 : ℝ} (h : k1 ≠ 0) (k2 K b : ℝ) :
    HasDerivAt (c2F k1 k2 K)
      (k1 * k2 * (k1 * k1 + k2 * k2 + K * K) / ((k1 * k1 + k2 * k2) * shearSq k1 k2 K b)) b := by
  have hs : 0 < k1 * k1 + k2 * k2 := by nlinarith [mul_self_pos.2 h, mul_self_nonneg k2]
  have hq := (shearSq_pos h k2 K b).ne'
  have hr := (Real.sqrt_pos.2 hs).ne'
  unfold c2F
  refine HasDerivAt.congr_deriv ((hasDerivAt_arg h k2 K b).const_mul _) ?_
  rw [rpow_three_half hs]
  field_simp

theorem continuous_shearSq (k1 k2 K : ℝ) : Continuous (fun t => shearSq k1 k2 K t) := by
  unfold shearSq; fun_prop

theorem rdt1_eq {k1 : ℝ} (h : k1 ≠ 0) (k2 K b : ℝ) :
    rdt1 k1 k2 K b = c1F k1 k2 K b - k2 / k1 * c2F k1 k2 K b := by
  have hs : 0 < k1 * k1 + k2 * k2 := by nlinarith [mul_self_pos.2 h, mul_self_nonneg k2]
  have hd : ∀ t ∈ Set.uIcc 0 b, HasDerivAt (fun t => c1F k1 k2 K t - k2 / k1 * c2F k1 k2 K t)
      ((2 * k1 ^ 2 / shearSq k1 k2 K t - 1) * rdt3 k1 k2 K t) t := by
    intro t _
    refine HasDerivAt.congr_deriv ((hasDerivAt_c1F h k2 K t).sub ((hasDerivAt_c2F h k2 K t).const_mul (k2 / k1))) ?_
    have hq := (shearSq_pos h k2 K t).ne'
    have e0 : shearSq k1 k2 K 0 = k1 * k1 + k2 * k2 + K * K := by unfold shearSq; ring
    rw [rdt3, e0]
    field_simp
    ring
  have hc : Continuous fun t => (2 * k1 ^ 2 / shearSq k1 k2 K t - 1) * rdt3 k1 k2 K t := by
    unfold rdt3
    have := continuous_shearSq k1 k2 K
    exact ((continuous_const.div this fun t => (shearSq_pos h k2 K t).ne').sub continuous_const).mul
      (continuous_const.div this fun t => (shearSq_pos h k2 K t).ne')
  rw [rdt1, intervalIntegral.integral_eq_sub_of_hasDerivAt hd (hc.intervalIntegrable _ _)]
  have ha : Complex.arg (atPath k1 k2 K 0) = 0 := by
    have : atPath k1 k2 K 0 = ((k1 * k1 + k2 * k2 + K * K : ℝ) : ℂ) := by
      apply Complex.ext <;> simp [atPath]
    rw [this]; exact Complex.arg_ofReal_of_nonneg (by nlinarith [mul_self_nonneg K])
  simp [c1F, c2F, ha]

theorem rdt2_eq {k1 : ℝ} (h : k1 ≠ 0) (k2 K b : ℝ) :
    rdt2 k1 k2 K b = k2 / k1 * c1F k1 k2 K b + c2F k1 k2 K b := by
  have hs : 0 < k1 * k1 + k2 * k2 := by nlinarith [mul_self_pos.2 h, mul_self_nonneg k2]
  have hd : ∀ t ∈ Set.uIcc 0 b, HasDerivAt (fun t => k2 / k1 * c1F k1 k2 K t + c2F k1 k2 K t)
      ((2 * k1 * k2 / shearSq k1 k2 K t) * rdt3 k1 k2 K t) t := by
    intro t _
    refine HasDerivAt.congr_deriv (((hasDerivAt_c1F h k2 K t).const_mul (k2 / k1)).add (hasDerivAt_c2F h k2 K t)) ?_
    have hq := (shearSq_pos h k2 K t).ne'
    have e0 : shearSq k1 k2 K 0 = k1 * k1 + k2 * k2 + K * K := by unfold shearSq; ring
    rw [rdt3, e0]
    field_simp
    ring
  have hc : Continuous fun t => (2 * k1 * k2 / shearSq k1 k2 K t) * rdt3 k1 k2 K t := by
    unfold rdt3
    have := continuous_shearSq k1 k2 K
    exact (continuous_const.div this fun t => (shearSq_pos h k2 K t).ne').mul
      (continuous_const.div this fun t => (shearSq_pos h k2 K t).ne')
  rw [rdt2, intervalIntegral.integral_eq_sub_of_hasDerivAt hd (hc.intervalIntegrable _ _)]
  have ha : Complex.arg (atPath k1 k2 K 0) = 0 := by
    have : atPath k1 k2 K 0 = ((k1 * k1 + k2 * k2 + K * K : ℝ) : ℂ) := by
      apply Complex.ext <;> simp [atPath]
    rw [this]; exact Complex.arg_ofReal_of_nonneg (by nlinarith [mul_self_nonneg K])
  simp [c1F, c2F, ha]

variable {k : K3} {b : ℝ}

theorem kkR_shear : kkR k = shearSq k.k1 k.k2 (k30R k b) b := by unfold kkR shearSq k30R; ring

theorem c1R_eq : c1R k b = c1F k.k1 k.k2 (k30R k b) b := by
  unfold c1R c1F; rw [← kkR_shear]; rfl
theorem c2R_eq : c2R k b = c2F k.k1 k.k2 (k30R k b) b := rfl

theorem z1R_eq (h : k.k1 ≠ 0) : z1R k b = rdt1 k.k1 k.k2 (k30R k b) b := by
  rw [rdt1_eq h, z1R, c1R_eq, c2R_eq]
theorem z2R_eq (h : k.k1 ≠ 0) : z2R k b = rdt2 k.k1 k.k2 (k30R k b) b := by
  rw [rdt2_eq h, z2R, c1R_eq, c2R_eq]
theorem z3R_eq : z3R k b = rdt3 k.k1 k.k2 (k30R k b) b := by
  unfold z3R rdt3; rw [← kkR_shear]; congr 1; unfold kk0R shearSq; ring

end
end Verif
