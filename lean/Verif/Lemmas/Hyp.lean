import Verif.Spec.Hyp
import Mathlib.Analysis.Analytic.Binomial
import Mathlib.Analysis.Analytic.Uniqueness
import Mathlib.Analysis.Analytic.IsolatedZeros
import Mathlib.Analysis.Calculus.FDeriv.Analytic
import Mathlib.Analysis.Calculus.Deriv.MeanValue
import Mathlib.Analysis.SpecialFunctions.Pow.Deriv
import Mathlib.Analysis.SpecialFunctions.Pow.Asymptotics
import Mathlib.MeasureTheory.Integral.IntegralEqImproper

/-!
# The hypergeometric function `2F1(a, b; a+1; ·)` on the negative real axis

First-order differential equation `z F' + a F = a (1-z)^(-b)`, continuation along the negative axis (existence by the
Pfaff transformation, uniqueness by the identity theorem), and bounds.
-/

namespace Verif

open Filter Topology Nat
open scoped ENNReal

noncomputable section

/-- The binomial series with Pochhammer coefficients. -/
theorem hasSum_binomial (b : ℝ) {z : ℝ} (hz : |z| < 1) :
    HasSum (fun n : ℕ => ((n ! : ℝ)⁻¹ * (ascPochhammer ℝ n).eval b) * z ^ n) ((1 - z) ^ (-b)) := by
  have h := (Real.one_add_rpow_hasFPowerSeriesOnBall_zero (a := -b)).hasSum
    (y := -z) (by simpa [enorm_eq_nnnorm, ← NNReal.coe_lt_coe] using hz)
  rw [binomialSeries_eq_ordinaryHypergeometricSeries (b := (1 : ℝ))
    (by intro k; have : (0:ℝ) ≤ k := k.cast_nonneg; linarith)] at h
  have e : (1 : ℝ) + (0 + -z) = 1 - z := by ring
  simp only [e] at h
  refine h.congr_fun ?_ 
  intro n
  rw [FormalMultilinearSeries.compContinuousLinearMap_apply]
  have e2 : (⇑(-ContinuousLinearMap.id ℝ ℝ) ∘ fun _ : Fin n => -z) = fun _ => z := by
    funext i; simp
  have h2 : (ascPochhammer ℝ n).eval (1 : ℝ) ≠ 0 := (ascPochhammer_pos n _ one_pos).ne'
  rw [e2, ordinaryHypergeometricSeries_apply_eq, neg_neg, smul_eq_mul]
  field_simp

/-- Coefficients of `2F1(a, b; a+1; ·)`. -/
theorem coeff_mul {a b : ℝ} (ha : 0 < a) (n : ℕ) :
    (a + n) * ordinaryHypergeometricCoefficient a b (a + 1) n =
      a * ((n ! : ℝ)⁻¹ * (ascPochhammer ℝ n).eval b) := by
  have h1 : (ascPochhammer ℝ n).eval a * (a + n) = a * (ascPochhammer ℝ n).eval (a + 1) := by
    rw [← ascPochhammer_succ_eval, ascPochhammer_succ_left]
    simp
  have h2 : (ascPochhammer ℝ n).eval (a + 1) ≠ 0 := (ascPochhammer_pos n _ (by linarith)).ne'
  unfold ordinaryHypergeometricCoefficient
  field_simp
  linear_combination (ascPochhammer ℝ n).eval b * h1

/-- `b` is not a non-positive integer. -/
def NotNegNat (b : ℝ) : Prop := ∀ k : ℕ, (k : ℝ) ≠ -b

theorem hyp_ball {a b : ℝ} (ha : 0 < a) (hb : NotNegNat b) :
    HasFPowerSeriesOnBall (₂F₁ a b (a + 1) : ℝ → ℝ) (ordinaryHypergeometricSeries ℝ a b (a + 1)) 0 1 := by
  have hr := ordinaryHypergeometricSeries_radius_eq_one (𝔸 := ℝ) a b (a + 1)
    (fun k => ⟨by have : (0:ℝ) ≤ k := k.cast_nonneg; linarith, hb k,
      by have : (0:ℝ) ≤ k := k.cast_nonneg; linarith⟩)
  have := (ordinaryHypergeometricSeries ℝ a b (a + 1)).hasFPowerSeriesOnBall (by rw [hr]; exact one_pos)
  rwa [hr] at this

theorem hyp_series_ode {a b : ℝ} (ha : 0 < a) (hb : NotNegNat b) {z : ℝ} (hz : |z| < 1) :
    z * deriv (₂F₁ a b (a + 1)) z + a * ₂F₁ a b (a + 1) z = a * (1 - z) ^ (-b) := by
  have hz' : z ∈ Metric.eball (0:ℝ) 1 := by simpa [enorm_eq_nnnorm, ← NNReal.coe_lt_coe] using hz
  have hB := hyp_ball ha hb
  have h1 := hB.hasSum hz'
  have h2 := (hB.fderiv).hasSum hz'
  simp only [zero_add] at h1 h2
  have h3 := h2.mapL (ContinuousLinearMap.apply ℝ ℝ z)
  have e3 : ((ContinuousLinearMap.apply ℝ ℝ) z) (fderiv ℝ (₂F₁ a b (a + 1)) z) = z * deriv (₂F₁ a b (a + 1)) z := by
    rw [ContinuousLinearMap.apply_apply, fderiv_eq_smul_deriv, smul_eq_mul]
  rw [e3] at h3
  have h4 : HasSum (fun n : ℕ => ((n + 1 : ℕ) : ℝ) * (ordinaryHypergeometricCoefficient a b (a + 1) (n + 1) *
      z ^ (n + 1))) (z * deriv (₂F₁ a b (a + 1)) z) := by
    refine h3.congr_fun ?_
    intro n
    rw [ContinuousLinearMap.apply_apply, FormalMultilinearSeries.derivSeries_apply_diag,
      ordinaryHypergeometricSeries_apply_eq, nsmul_eq_mul, smul_eq_mul]
  have h5 : HasSum (fun n : ℕ => (n : ℝ) * (ordinaryHypergeometricCoefficient a b (a + 1) n * z ^ n))
      (z * deriv (₂F₁ a b (a + 1)) z) := by
    have := (hasSum_nat_add_iff (f := fun n : ℕ => (n : ℝ) * (ordinaryHypergeometricCoefficient a b (a + 1) n * z ^ n))
      1).1 h4
    simpa using this
  have h1' : HasSum (fun n : ℕ => ordinaryHypergeometricCoefficient a b (a + 1) n * z ^ n) (₂F₁ a b (a + 1) z) := by
    refine h1.congr_fun ?_
    intro n
    rw [ordinaryHypergeometricSeries_apply_eq, smul_eq_mul]
  have h6 := h5.add (h1'.mul_left a)
  refine h6.unique (((hasSum_binomial b hz).mul_left a).congr_fun ?_)
  intro n
  have := coeff_mul (b := b) ha n
  linear_combination z ^ n * this

theorem rpow_analyticAt {p z : ℝ} (hz : z < 1) : AnalyticAt ℝ (fun z : ℝ => (1 - z) ^ p) z := by
  have h : AnalyticAt ℝ (fun z : ℝ => Real.exp (Real.log (1 - z) * p)) z :=
    (((analyticAt_const.sub analyticAt_id).log (by simpa using hz)).mul analyticAt_const).rexp
  refine h.congr ?_
  filter_upwards [eventually_lt_nhds hz] with w hw
  rw [Real.rpow_def_of_pos (by linarith)]

theorem eventually_abs_lt_one : ∀ᶠ z : ℝ in 𝓝 0, |z| < 1 := by
  have : Tendsto (fun z : ℝ => |z|) (𝓝 0) (𝓝 0) := by
    simpa using (continuous_abs (G := ℝ)).tendsto (0:ℝ)
  exact this.eventually (eventually_lt_nhds one_pos)

namespace IsHyp2F1

variable {a b : ℝ} {hyp : ℝ → ℝ}

/-- The continuation is unique. -/
theorem eqOn {a b c : ℝ} {f g : ℝ → ℝ} (hf : IsHyp2F1 a b c f) (hg : IsHyp2F1 a b c g) : Set.EqOn f g (Set.Iic 0) :=
  hf.analytic.eqOn_of_preconnected_of_eventuallyEq hg.analytic isPreconnected_Iic (Set.mem_Iic.2 le_rfl)
    (hf.series.trans hg.series.symm)

/-- The first-order differential equation holds on the whole negative axis. -/
theorem ode (h : IsHyp2F1 a b (a + 1) hyp) (ha : 0 < a) (hb : NotNegNat b) {z : ℝ} (hz : z ≤ 0) :
    z * deriv hyp z + a * hyp z = a * (1 - z) ^ (-b) := by
  have h1 : AnalyticOnNhd ℝ (fun z => z * deriv hyp z + a * hyp z) (Set.Iic 0) := fun z hz =>
    (analyticAt_id.mul (h.analytic z hz).deriv).add (analyticAt_const.mul (h.analytic z hz))
  have h2 : AnalyticOnNhd ℝ (fun z : ℝ => a * (1 - z) ^ (-b)) (Set.Iic 0) := fun z hz =>
    analyticAt_const.mul (rpow_analyticAt (lt_of_le_of_lt hz one_pos))
  refine h1.eqOn_of_preconnected_of_eventuallyEq h2 isPreconnected_Iic (Set.mem_Iic.2 le_rfl) ?_ hz
  filter_upwards [h.series.eventuallyEq_nhds, eventually_abs_lt_one] with w hw hw1
  rw [hw.deriv_eq, hw.eq_of_nhds]
  exact hyp_series_ode ha hb hw1

theorem zero {c : ℝ} (h : IsHyp2F1 a b c hyp) : hyp 0 = 1 := by
  rw [h.series.eq_of_nhds, ordinaryHypergeometric_zero]

theorem hasDerivAt {c : ℝ} (h : IsHyp2F1 a b c hyp) {z : ℝ} (hz : z ≤ 0) : HasDerivAt hyp (deriv hyp z) z :=
  (h.analytic z hz).differentiableAt.hasDerivAt

/-- `(x^a hyp(-x))' = a x^(a-1) (1+x)^(-b)`. -/
theorem hasDerivAt_mul (h : IsHyp2F1 a b (a + 1) hyp) (ha : 0 < a) (hb : NotNegNat b) {x : ℝ} (hx : 0 < x) :
    HasDerivAt (fun x : ℝ => x ^ a * hyp (-x)) (a * x ^ (a - 1) * (1 + x) ^ (-b)) x := by
  have h1 : HasDerivAt (fun x : ℝ => x ^ a) (a * x ^ (a - 1)) x := Real.hasDerivAt_rpow_const (Or.inl hx.ne')
  have h2 : HasDerivAt (fun x : ℝ => hyp (-x)) (deriv hyp (-x) * (-1)) x :=
    (h.hasDerivAt (z := -x) (by linarith)).comp x (hasDerivAt_neg x)
  refine (h1.mul h2).congr_deriv ?_
  have := h.ode ha hb (z := -x) (by linarith)
  rw [sub_neg_eq_add] at this
  have e : x ^ a = x ^ (a - 1) * x := by
    rw [← Real.rpow_add_one hx.ne', sub_add_cancel]
  rw [e]
  linear_combination (x ^ (a - 1)) * this

theorem continuousOn_mul {c : ℝ} (h : IsHyp2F1 a b c hyp) (ha : 0 < a) :
    ContinuousOn (fun x : ℝ => x ^ a * hyp (-x)) (Set.Ici 0) := by
  refine ContinuousOn.mul (fun x _ => (Real.continuousAt_rpow_const x a (Or.inr ha.le)).continuousWithinAt) ?_
  intro x hx
  have : ContinuousAt hyp (-x) := (h.analytic (-x) (by simpa using hx)).continuousAt
  exact (this.comp continuous_neg.continuousAt).continuousWithinAt

/-- Upper bound. -/
theorem le_one (h : IsHyp2F1 a b (a + 1) hyp) (ha : 0 < a) (hb : NotNegNat b) (hb0 : 0 ≤ b) {x : ℝ} (hx : 0 ≤ x) :
    hyp (-x) ≤ 1 := by
  rcases hx.eq_or_lt with rfl | hx
  · simp [h.zero]
  have hanti : AntitoneOn (fun x : ℝ => x ^ a * hyp (-x) - x ^ a) (Set.Ici 0) := by
    refine antitoneOn_of_deriv_nonpos (convex_Ici 0) ?_ ?_ ?_
    · exact (h.continuousOn_mul ha).sub fun x _ => (Real.continuousAt_rpow_const x a (Or.inr ha.le)).continuousWithinAt
    · intro y hy
      rw [interior_Ici] at hy
      exact ((h.hasDerivAt_mul ha hb hy).sub
        (Real.hasDerivAt_rpow_const (Or.inl (ne_of_gt hy)))).differentiableAt.differentiableWithinAt
    · intro y hy
      rw [interior_Ici] at hy
      have hy : 0 < y := hy
      have hd : HasDerivAt (fun x : ℝ => x ^ a * hyp (-x) - x ^ a)
          (a * y ^ (a - 1) * (1 + y) ^ (-b) - a * y ^ (a - 1)) y :=
        (h.hasDerivAt_mul ha hb hy).sub (Real.hasDerivAt_rpow_const (p := a) (Or.inl hy.ne'))
      rw [hd.deriv]
      have h1 : (1 + y) ^ (-b) ≤ 1 := Real.rpow_le_one_of_one_le_of_nonpos (by linarith) (by linarith)
      have h2 : 0 < a * y ^ (a - 1) := by positivity
      nlinarith
  have h3 := hanti (Set.mem_Ici.2 le_rfl) (Set.mem_Ici.2 hx.le) hx.le
  simp only [Real.zero_rpow ha.ne', zero_mul, sub_zero] at h3
  have h4 : 0 < x ^ a := by positivity
  by_contra hcon
  push Not at hcon
  nlinarith

/-- Lower bound, strict away from `0`. -/
theorem gt (h : IsHyp2F1 a b (a + 1) hyp) (ha : 0 < a) (hb : NotNegNat b) (hb0 : 0 < b) {x : ℝ} (hx : 0 < x) :
    (1 + x) ^ (-b) < hyp (-x) := by
  have hd : ∀ y > (0:ℝ), HasDerivAt (fun x : ℝ => x ^ a * hyp (-x) - x ^ a * (1 + x) ^ (-b))
      (b * y ^ a * (1 + y) ^ (-b - 1)) y := by
    intro y hy
    have h1 : HasDerivAt (fun x : ℝ => x ^ a) (a * y ^ (a - 1)) y := Real.hasDerivAt_rpow_const (Or.inl hy.ne')
    have h2 : HasDerivAt (fun x : ℝ => (1 + x) ^ (-b)) (1 * (-b) * (1 + y) ^ (-b - 1)) y :=
      ((hasDerivAt_id y).const_add 1).rpow_const (Or.inl (by simp; linarith))
    refine ((h.hasDerivAt_mul ha hb hy).sub (h1.mul h2)).congr_deriv ?_
    ring
  have hmono : StrictMonoOn (fun x : ℝ => x ^ a * hyp (-x) - x ^ a * (1 + x) ^ (-b)) (Set.Ici 0) := by
    refine strictMonoOn_of_deriv_pos (convex_Ici 0) ?_ ?_
    · refine (h.continuousOn_mul ha).sub (ContinuousOn.mul (fun x _ =>
        (Real.continuousAt_rpow_const x a (Or.inr ha.le)).continuousWithinAt) ?_)
      intro y hy
      have hy : (0:ℝ) ≤ y := hy
      exact ((continuousAt_const.add continuousAt_id).rpow_const (Or.inl (by simp; linarith))).continuousWithinAt
    · intro y hy
      rw [interior_Ici] at hy
      have hy : 0 < y := hy
      rw [(hd y hy).deriv]
      positivity
  have h3 := hmono (Set.mem_Ici.2 le_rfl) (Set.mem_Ici.2 hx.le) hx
  simp only [Real.zero_rpow ha.ne', zero_mul, sub_zero] at h3
  have h4 : 0 < x ^ a := by positivity
  by_contra hcon
  push Not at hcon
  nlinarith

/-- Lower bound. -/
theorem ge (h : IsHyp2F1 a b (a + 1) hyp) (ha : 0 < a) (hb : NotNegNat b) (hb0 : 0 < b) {x : ℝ} (hx : 0 ≤ x) :
    (1 + x) ^ (-b) ≤ hyp (-x) := by
  rcases hx.eq_or_lt with rfl | hx
  · simp [h.zero]
  · exact (h.gt ha hb hb0 hx).le

theorem pos (h : IsHyp2F1 a b (a + 1) hyp) (ha : 0 < a) (hb : NotNegNat b) (hb0 : 0 < b) {z : ℝ} (hz : z ≤ 0) :
    0 < hyp z := by
  have := h.ge ha hb hb0 (x := -z) (by linarith)
  rw [neg_neg] at this
  exact lt_of_lt_of_le (by have : 0 < 1 + -z := by linarith
                           positivity) this

/-- The function increases strictly along the negative axis. -/
theorem mono (h : IsHyp2F1 a b (a + 1) hyp) (ha : 0 < a) (hb : NotNegNat b) (hb0 : 0 < b) :
    StrictMonoOn hyp (Set.Iic 0) := by
  refine strictMonoOn_of_deriv_pos (convex_Iic 0) (fun z hz => (h.analytic z hz).continuousAt.continuousWithinAt) ?_
  intro y hy
  rw [interior_Iic] at hy
  have hy : y < 0 := hy
  have h1 := h.ode ha hb hy.le
  have h2 := h.gt ha hb hb0 (x := -y) (by linarith)
  rw [neg_neg, ← sub_eq_add_neg] at h2
  by_contra hcon
  push Not at hcon
  nlinarith

end IsHyp2F1

/-! ### Existence -/

/-- Pfaff's transformation, as a definition of the continuation. -/
def pfaff (a b : ℝ) (z : ℝ) : ℝ := (1 - z) ^ (-a) * ₂F₁ a (a + 1 - b) (a + 1) (z / (z - 1))

theorem pfaff_arg {z : ℝ} (hz : z ≤ 0) : |z / (z - 1)| < 1 := by
  have h1 : (0:ℝ) ≤ z / (z - 1) := div_nonneg_of_nonpos hz (by linarith)
  rw [abs_of_nonneg h1, div_lt_one_of_neg (by linarith)]
  linarith

theorem hyp_analyticAt {a b : ℝ} (ha : 0 < a) (hb : NotNegNat b) {w : ℝ} (hw : |w| < 1) :
    AnalyticAt ℝ (₂F₁ a b (a + 1)) w :=
  (hyp_ball ha hb).analyticAt_of_mem (by simpa [enorm_eq_nnnorm, ← NNReal.coe_lt_coe] using hw)

theorem pfaff_analyticAt {a b : ℝ} (ha : 0 < a) (hb : NotNegNat (a + 1 - b)) {z : ℝ} (hz : z < 1)
    (hw : |z / (z - 1)| < 1) : AnalyticAt ℝ (pfaff a b) z := by
  have h1 : AnalyticAt ℝ (fun z : ℝ => z / (z - 1)) z :=
    analyticAt_id.div (analyticAt_id.sub analyticAt_const) (by simp; linarith)
  exact (rpow_analyticAt hz).mul (AnalyticAt.comp (f := fun z : ℝ => z / (z - 1)) (hyp_analyticAt ha hb hw) h1)

theorem pfaff_ode {a b : ℝ} (ha : 0 < a) (hb : NotNegNat (a + 1 - b)) {z : ℝ} (hz : z < 1)
    (hw : |z / (z - 1)| < 1) : z * deriv (pfaff a b) z + a * pfaff a b z = a * (1 - z) ^ (-b) := by
  have h0 : (0:ℝ) < 1 - z := by linarith
  have h1 : HasDerivAt (fun z : ℝ => (1 - z) ^ (-a)) (-1 * (-a) * (1 - z) ^ (-a - 1)) z :=
    ((hasDerivAt_id z).const_sub 1).rpow_const (Or.inl h0.ne')
  have h2 : HasDerivAt (fun z : ℝ => z / (z - 1)) ((1 * (z - 1) - z * 1) / (z - 1) ^ 2) z :=
    (hasDerivAt_id z).div ((hasDerivAt_id z).sub_const 1) (by simp; linarith)
  have h3 := (hyp_analyticAt ha hb hw).differentiableAt.hasDerivAt.comp z h2
  have h4 := h1.mul h3
  have h5 := hyp_series_ode ha hb hw
  have h6 : deriv (pfaff a b) z = _ := h4.deriv
  rw [h6]
  have e1 : 1 - z / (z - 1) = (1 - z)⁻¹ := by
    have : z - 1 ≠ 0 := by linarith
    have : 1 - z ≠ 0 := h0.ne'
    field_simp
    ring
  rw [e1, Real.inv_rpow h0.le, Real.rpow_neg h0.le, inv_inv] at h5
  have e2 : (1 - z) ^ (-a) = (1 - z) ^ (-a - 1) * (1 - z) := by
    rw [← Real.rpow_add_one h0.ne', sub_add_cancel]
  have e3 : (1 - z) ^ (-b) = (1 - z) ^ (-a - 1) * (1 - z) ^ (a + 1 - b) := by
    rw [← Real.rpow_add h0]; congr 1; ring
  have e4 : z * ((1 * (z - 1) - z * 1) / (z - 1) ^ 2) = z / (z - 1) * (1 / (1 - z)) := by
    have : z - 1 ≠ 0 := by linarith
    have : 1 - z ≠ 0 := h0.ne'
    field_simp
    ring
  have e5 : (1 - z) * (1 / (1 - z)) = 1 := by field_simp
  unfold pfaff
  simp only [Function.comp_apply]
  rw [e2, e3]
  generalize (1 - z) ^ (-a - 1) = A at *
  generalize (1 - z) ^ (a + 1 - b) = B at *
  generalize ₂F₁ a (a + 1 - b) (a + 1) (z / (z - 1)) = G at *
  generalize deriv (₂F₁ a (a + 1 - b) (a + 1)) (z / (z - 1)) = G' at *
  generalize (1 * (z - 1) - z * 1) / (z - 1) ^ 2 = W at *
  generalize z / (z - 1) = w at *
  generalize 1 / (1 - z) = v at *
  linear_combination A * h5 + A * (1 - z) * G' * e4 + A * G' * w * e5

/-- The analytic solution of the differential equation at `0` is unique. -/
theorem ode_unique {a : ℝ} (ha : 0 < a) {f g r : ℝ → ℝ} (hf : AnalyticAt ℝ f 0) (hg : AnalyticAt ℝ g 0)
    (ef : ∀ᶠ z in 𝓝 0, z * deriv f z + a * f z = r z) (eg : ∀ᶠ z in 𝓝 0, z * deriv g z + a * g z = r z) :
    f =ᶠ[𝓝 0] g := by
  obtain ⟨ε, hε, hb⟩ := Metric.eventually_nhds_iff.1
    ((hf.eventually_analyticAt.and hg.eventually_analyticAt).and (ef.and eg))
  have key : ∀ x, 0 < x → x < ε → f x = g x := by
    intro x hx hxe
    have hin : ∀ y ∈ Set.Icc 0 x, dist y 0 < ε := fun y hy => by
      rw [Real.dist_0_eq_abs, abs_of_nonneg hy.1]; exact lt_of_le_of_lt hy.2 hxe
    have hcont : ContinuousOn (fun y : ℝ => y ^ a * (f y - g y)) (Set.Icc 0 x) := by
      intro y hy
      have h1 := (hb (hin y hy)).1
      exact ((Real.continuousAt_rpow_const y a (Or.inr ha.le)).mul
        (h1.1.continuousAt.sub h1.2.continuousAt)).continuousWithinAt
    have hder : ∀ y ∈ Set.Ioo 0 x, HasDerivAt (fun y : ℝ => y ^ a * (f y - g y)) 0 y := by
      intro y hy
      have h1 := hb (hin y ⟨hy.1.le, hy.2.le⟩)
      have h2 : HasDerivAt (fun y : ℝ => y ^ a) (a * y ^ (a - 1)) y := Real.hasDerivAt_rpow_const (Or.inl hy.1.ne')
      refine (h2.mul (h1.1.1.differentiableAt.hasDerivAt.sub h1.1.2.differentiableAt.hasDerivAt)).congr_deriv ?_
      have e : y ^ a = y ^ (a - 1) * y := by
        rw [← Real.rpow_add_one hy.1.ne', sub_add_cancel]
      simp only [Pi.sub_apply]
      rw [e]
      linear_combination (y ^ (a - 1)) * (h1.2.1 - h1.2.2)
    have hdiff : DifferentiableOn ℝ (fun y : ℝ => y ^ a * (f y - g y)) (interior (Set.Icc 0 x)) := by
      rw [interior_Icc]
      exact fun y hy => (hder y hy).differentiableAt.differentiableWithinAt
    have hm := monotoneOn_of_deriv_nonneg (convex_Icc 0 x) hcont hdiff
      (by rw [interior_Icc]; exact fun y hy => (hder y hy).deriv.ge)
    have hn := antitoneOn_of_deriv_nonpos (convex_Icc 0 x) hcont hdiff
      (by rw [interior_Icc]; exact fun y hy => (hder y hy).deriv.le)
    have h1 := hm ⟨le_rfl, hx.le⟩ ⟨hx.le, le_rfl⟩ hx.le
    have h2 := hn ⟨le_rfl, hx.le⟩ ⟨hx.le, le_rfl⟩ hx.le
    simp only [Real.zero_rpow ha.ne', zero_mul] at h1 h2
    have h3 : x ^ a * (f x - g x) = 0 := le_antisymm h2 h1
    rcases mul_eq_zero.1 h3 with h | h
    · exact absurd h (by positivity)
    · linarith
  refine (hf.frequently_eq_iff_eventually_eq hg).1 ?_
  have h1 : ∃ᶠ z in 𝓝[>] (0:ℝ), f z = g z := by
    refine Eventually.frequently ?_
    filter_upwards [self_mem_nhdsWithin, mem_nhdsWithin_of_mem_nhds (eventually_lt_nhds hε)] with z hz hz2
    exact key z hz hz2
  exact h1.filter_mono (nhdsWithin_mono _ fun z hz => ne_of_gt hz)

/-- The continuation exists. -/
theorem pfaff_isHyp2F1 {a b : ℝ} (ha : 0 < a) (hb : NotNegNat b) (hb' : NotNegNat (a + 1 - b)) :
    IsHyp2F1 a b (a + 1) (pfaff a b) := by
  refine ⟨fun z hz => pfaff_analyticAt ha hb' (lt_of_le_of_lt hz one_pos) (pfaff_arg hz), ?_⟩
  have hev : ∀ᶠ z : ℝ in 𝓝 0, |z / (z - 1)| < 1 := by
    have : ContinuousAt (fun z : ℝ => |z / (z - 1)|) 0 :=
      (continuousAt_id.div (continuousAt_id.sub continuousAt_const) (by norm_num)).abs
    exact this.eventually (eventually_lt_nhds (by norm_num))
  refine ode_unique ha (r := fun z => a * (1 - z) ^ (-b)) (pfaff_analyticAt ha hb' one_pos (pfaff_arg le_rfl))
    (hyp_analyticAt ha hb (by norm_num)) ?_ ?_
  · filter_upwards [hev, eventually_lt_nhds (one_pos (α := ℝ))] with z h1 h2
    exact pfaff_ode ha hb' h2 h1
  · filter_upwards [eventually_abs_lt_one] with z h1
    exact hyp_series_ode ha hb h1

theorem mann_notNegNat : NotNegNat (17 / 6) := fun k => by
  have : (0:ℝ) ≤ k := k.cast_nonneg
  linarith

/-- The function of `MannEddyLifetime` exists. -/
theorem exists_isMannHyp : ∃ hyp, IsMannHyp hyp := by
  have h : NotNegNat (1 / 3 + 1 - 17 / 6) := by
    intro k hk
    have h2 : ((2 * k : ℕ) : ℝ) = ((3 : ℕ) : ℝ) := by push_cast; linarith
    have := Nat.cast_injective h2
    omega
  have := pfaff_isHyp2F1 (a := 1 / 3) (b := 17 / 6) (by norm_num) mann_notNegNat h
  have e : (1 / 3 + 1 : ℝ) = 4 / 3 := by norm_num
  rw [e] at this
  exact ⟨_, this⟩

namespace IsHyp2F1
variable {hyp : ℝ → ℝ}

theorem mann (h : IsMannHyp hyp) : IsHyp2F1 (1 / 3) (17 / 6) (1 / 3 + 1) hyp := by
  have e : (1 / 3 + 1 : ℝ) = 4 / 3 := by norm_num
  rw [e]; exact h

theorem mann_hyp_pos (h : IsMannHyp hyp) {z : ℝ} (hz : z ≤ 0) : 0 < hyp z :=
  h.mann.pos (by norm_num) mann_notNegNat (by norm_num) hz

theorem mann_hyp_le (h : IsMannHyp hyp) {z : ℝ} (hz : z ≤ 0) : hyp z ≤ 1 := by
  have := h.mann.le_one (by norm_num) mann_notNegNat (by norm_num) (x := -z) (by linarith)
  rwa [neg_neg] at this

theorem mann_hyp_mono (h : IsMannHyp hyp) : StrictMonoOn hyp (Set.Iic 0) :=
  h.mann.mono (by norm_num) mann_notNegNat (by norm_num)

/-- `P(κ) = κ^(-2/3) hyp(-κ^(-2))` has derivative `-(2/3) κ^4/(1+κ^2)^(17/6)`. -/
theorem mann_hasDerivAt (h : IsMannHyp hyp) {x : ℝ} (hx : 0 < x) :
    HasDerivAt (fun x : ℝ => x ^ (-2 / 3 : ℝ) * hyp (-(x ^ (-2 : ℝ))))
      (-(2 / 3 * (x ^ 4 / (1 + x ^ 2) ^ (17 / 6 : ℝ)))) x := by
  have hy : 0 < x ^ (-2 : ℝ) := Real.rpow_pos_of_pos hx _
  have h1 := h.mann.hasDerivAt_mul (by norm_num) mann_notNegNat hy
  have h2 : HasDerivAt (fun x : ℝ => x ^ (-2 : ℝ)) (-2 * x ^ (-2 - 1 : ℝ)) x :=
    Real.hasDerivAt_rpow_const (Or.inl hx.ne')
  have h3 := h1.comp x h2
  refine (h3.congr_of_eventuallyEq ?_).congr_deriv ?_
  · filter_upwards [eventually_gt_nhds hx] with w hw
    simp only [Function.comp_apply]
    rw [← Real.rpow_mul hw.le]
    norm_num
  · have e1 : (1 + x ^ (-2 : ℝ)) = (1 + x ^ 2) * x ^ (-2 : ℝ) := by
      have : x ^ 2 * x ^ (-2 : ℝ) = 1 := by
        rw [← Real.rpow_natCast, ← Real.rpow_add hx]; norm_num
      linear_combination -this
    rw [e1, Real.mul_rpow (by positivity) hy.le, ← Real.rpow_mul hx.le, ← Real.rpow_mul hx.le,
      Real.rpow_neg (by positivity)]
    have e2 : x ^ (-2 * (1 / 3 - 1) : ℝ) * x ^ (-2 * -(17 / 6) : ℝ) * x ^ (-2 - 1 : ℝ) = x ^ 4 := by
      rw [← Real.rpow_add hx, ← Real.rpow_add hx, ← Real.rpow_natCast]; norm_num
    rw [← e2]
    field_simp

theorem mann_tendsto (h : IsMannHyp hyp) : Tendsto (fun x : ℝ => hyp (-(x ^ (-2 : ℝ)))) atTop (𝓝 1) := by
  have h1 : Tendsto (fun x : ℝ => -(x ^ (-2 : ℝ))) atTop (𝓝 0) := by
    have := (tendsto_rpow_neg_atTop (y := 2) (by norm_num)).neg
    simpa using this
  have h2 : Tendsto hyp (𝓝 0) (𝓝 1) := by
    have := (h.analytic 0 (Set.mem_Iic.2 le_rfl)).continuousAt.tendsto
    rwa [h.zero] at this
  exact h2.comp h1

theorem mann_tendsto_P (h : IsMannHyp hyp) :
    Tendsto (fun x : ℝ => x ^ (-2 / 3 : ℝ) * hyp (-(x ^ (-2 : ℝ)))) atTop (𝓝 0) := by
  have h1 : Tendsto (fun x : ℝ => x ^ (-2 / 3 : ℝ)) atTop (𝓝 0) := by
    have := tendsto_rpow_neg_atTop (y := 2 / 3) (by norm_num)
    convert this using 3
    norm_num
  simpa using h1.mul h.mann_tendsto

/-- Integral representation. -/
theorem mann_integral (h : IsMannHyp hyp) {κ : ℝ} (hκ : 0 < κ) :
    MeasureTheory.IntegrableOn (fun p : ℝ => p ^ 4 / (1 + p ^ 2) ^ (17 / 6 : ℝ)) (Set.Ioi κ) ∧
    κ ^ (-2 / 3 : ℝ) * hyp (-(κ ^ (-2 : ℝ))) =
      2 / 3 * ∫ p in Set.Ioi κ, p ^ 4 / (1 + p ^ 2) ^ (17 / 6 : ℝ) := by
  have hd : ∀ x ∈ Set.Ici κ, HasDerivAt (fun x : ℝ => x ^ (-2 / 3 : ℝ) * hyp (-(x ^ (-2 : ℝ))))
      (-(2 / 3 * (x ^ 4 / (1 + x ^ 2) ^ (17 / 6 : ℝ)))) x := fun x hx => h.mann_hasDerivAt (lt_of_lt_of_le hκ hx)
  have hn : ∀ x ∈ Set.Ioi κ, -(2 / 3 * (x ^ 4 / (1 + x ^ 2) ^ (17 / 6 : ℝ))) ≤ 0 := fun x hx => by
    have : 0 ≤ 2 / 3 * (x ^ 4 / (1 + x ^ 2) ^ (17 / 6 : ℝ)) := by positivity
    linarith
  have hi := MeasureTheory.integrableOn_Ioi_deriv_of_nonpos' hd hn h.mann_tendsto_P
  have he := MeasureTheory.integral_Ioi_of_hasDerivAt_of_nonpos' hd hn h.mann_tendsto_P
  constructor
  · refine (hi.const_mul (-(3 / 2))).congr (Filter.Eventually.of_forall fun x => ?_)
    ring
  · rw [MeasureTheory.integral_neg, MeasureTheory.integral_const_mul] at he
    linarith

end IsHyp2F1

end
end Verif
