import Verif.Spec.Tensor
import Mathlib.Analysis.SpecialFunctions.PolarCoord
import Mathlib.Analysis.SpecialFunctions.ImproperIntegrals
import Mathlib.Analysis.SpecialFunctions.Integrals.Basic

/-!
# The von Karman tensor integrated over a plane of wavevectors
-/

namespace Verif
open MeasureTheory Set Filter Topology Spec

noncomputable section

/-- Von Karman tensor without square roots. -/
theorem isoTensor_vk {L : ℝ} (hL : 0 < L) (C : ℝ) {k : Fin 3 → ℝ} (hk : 0 < sq3 k) (i j : Fin 3) :
    isoTensor (vkE L C) k i j = C * L ^ (17 / 3 : ℝ) / (4 * Real.pi) *
      (((if i = j then sq3 k else 0) - k i * k j) * (1 + L ^ 2 * sq3 k) ^ (-17 / 6 : ℝ)) := by
  set q := sq3 k with hq
  have hs : 0 < Real.sqrt q := Real.sqrt_pos.2 hk
  have hss : Real.sqrt q * Real.sqrt q = q := Real.mul_self_sqrt hk.le
  have hu : 0 < 1 + L ^ 2 * q := by positivity
  have h1 : 1 + (Real.sqrt q * L) ^ 2 = 1 + L ^ 2 * q := by
    rw [mul_pow, Real.sq_sqrt hk.le]; ring
  have hE : vkE L C (Real.sqrt q) = C * L ^ (17 / 3 : ℝ) * (1 + L ^ 2 * q) ^ (-17 / 6 : ℝ) * (q * q) := by
    unfold vkE
    rw [h1, Real.div_rpow (by positivity) (by positivity), Real.mul_rpow hs.le hL.le, Real.sqrt_eq_rpow (1 + L ^ 2 * q),
      ← Real.rpow_mul hu.le, show (-17 / 6 : ℝ) = -(1 / 2 * (17 / 3)) by norm_num, Real.rpow_neg hu.le]
    have h2 : Real.sqrt q ^ (-5 / 3 : ℝ) * Real.sqrt q ^ (17 / 3 : ℝ) = q * q := by
      rw [← Real.rpow_add hs, show (-5 / 3 + 17 / 3 : ℝ) = (4 : ℕ) by norm_num, Real.rpow_natCast]
      calc Real.sqrt q ^ 4 = (Real.sqrt q * Real.sqrt q) * (Real.sqrt q * Real.sqrt q) := by ring
        _ = q * q := by rw [hss]
    rw [← h2]
    have : (1 + L ^ 2 * q) ^ (1 / 2 * (17 / 3) : ℝ) ≠ 0 := by positivity
    field_simp
  unfold isoTensor
  rw [← hq, hE]
  have := hk.ne'
  have := Real.pi_ne_zero
  split_ifs <;> field_simp
  ring

theorem tendsto_lin_rpow_neg {a L : ℝ} (hL : 0 < L) {s : ℝ} (hs : 0 < s) :
    Tendsto (fun r : ℝ => (a + L ^ 2 * r ^ 2) ^ (-s)) atTop (𝓝 0) := by
  have h1 : Tendsto (fun r : ℝ => a + L ^ 2 * r ^ 2) atTop atTop := by
    apply tendsto_atTop_add_const_left
    exact (tendsto_pow_atTop (by norm_num)).const_mul_atTop (by positivity)
  exact (tendsto_rpow_neg_atTop hs).comp h1

theorem hasDerivAt_lin_rpow {a L : ℝ} (ha : 0 < a) (s r : ℝ) :
    HasDerivAt (fun r : ℝ => (a + L ^ 2 * r ^ 2) ^ s) (2 * L ^ 2 * r * s * (a + L ^ 2 * r ^ 2) ^ (s - 1)) r := by
  have hp : a + L ^ 2 * r ^ 2 ≠ 0 := by positivity
  have h0 : HasDerivAt (fun r : ℝ => a + L ^ 2 * r ^ 2) (L ^ 2 * (2 * r)) r := by
    have := ((hasDerivAt_pow 2 r).const_mul (L ^ 2)).const_add a
    simpa using this
  exact (h0.rpow_const (p := s) (Or.inl hp)).congr_deriv (by ring)

/-- `∫_0^∞ r (a+L²r²)^(-17/6) dr`. -/
theorem radial1 {a L : ℝ} (ha : 0 < a) (hL : 0 < L) :
    IntegrableOn (fun r : ℝ => r * (a + L ^ 2 * r ^ 2) ^ (-17 / 6 : ℝ)) (Ioi 0) ∧
    ∫ r in Ioi (0:ℝ), r * (a + L ^ 2 * r ^ 2) ^ (-17 / 6 : ℝ) = 3 / (11 * L ^ 2) * a ^ (-11 / 6 : ℝ) := by
  have hd : ∀ r ∈ Ici (0:ℝ), HasDerivAt (fun r : ℝ => -(3 / (11 * L ^ 2)) * (a + L ^ 2 * r ^ 2) ^ (-11 / 6 : ℝ))
      (r * (a + L ^ 2 * r ^ 2) ^ (-17 / 6 : ℝ)) r := by
    intro r _
    refine ((hasDerivAt_lin_rpow (L := L) ha (-11 / 6) r).const_mul _).congr_deriv ?_
    rw [show (-11 / 6 - 1 : ℝ) = -17 / 6 by norm_num]
    field_simp
    ring
  have hpos : ∀ r ∈ Ioi (0:ℝ), 0 ≤ r * (a + L ^ 2 * r ^ 2) ^ (-17 / 6 : ℝ) := by
    intro r hr
    have : 0 < r := hr
    positivity
  have hlim : Tendsto (fun r : ℝ => -(3 / (11 * L ^ 2)) * (a + L ^ 2 * r ^ 2) ^ (-11 / 6 : ℝ)) atTop (𝓝 0) := by
    have := (tendsto_lin_rpow_neg (a := a) hL (show (0:ℝ) < 11 / 6 by norm_num)).const_mul (-(3 / (11 * L ^ 2)))
    rw [mul_zero] at this
    rw [show (-11 / 6 : ℝ) = -(11 / 6) by norm_num]
    exact this
  refine ⟨integrableOn_Ioi_deriv_of_nonneg' hd hpos hlim, ?_⟩
  rw [integral_Ioi_of_hasDerivAt_of_nonneg' hd hpos hlim]
  simp

/-- `∫_0^∞ r³ (a+L²r²)^(-17/6) dr`. -/
theorem radial3 {a L : ℝ} (ha : 0 < a) (hL : 0 < L) :
    IntegrableOn (fun r : ℝ => r ^ 3 * (a + L ^ 2 * r ^ 2) ^ (-17 / 6 : ℝ)) (Ioi 0) ∧
    ∫ r in Ioi (0:ℝ), r ^ 3 * (a + L ^ 2 * r ^ 2) ^ (-17 / 6 : ℝ) = 18 / (55 * L ^ 4) * a ^ (-5 / 6 : ℝ) := by
  have hd : ∀ r ∈ Ici (0:ℝ), HasDerivAt (fun r : ℝ => -(3 / (5 * L ^ 4)) * (a + L ^ 2 * r ^ 2) ^ (-5 / 6 : ℝ) +
        3 * a / (11 * L ^ 4) * (a + L ^ 2 * r ^ 2) ^ (-11 / 6 : ℝ))
      (r ^ 3 * (a + L ^ 2 * r ^ 2) ^ (-17 / 6 : ℝ)) r := by
    intro r _
    refine (((hasDerivAt_lin_rpow (L := L) ha (-5 / 6) r).const_mul _).add
      ((hasDerivAt_lin_rpow (L := L) ha (-11 / 6) r).const_mul _)).congr_deriv ?_
    have hp : 0 < a + L ^ 2 * r ^ 2 := by positivity
    have e : (a + L ^ 2 * r ^ 2) ^ (-5 / 6 - 1 : ℝ) = (a + L ^ 2 * r ^ 2) ^ (-17 / 6 : ℝ) * (a + L ^ 2 * r ^ 2) := by
      conv_rhs => rw [← Real.rpow_one (a + L ^ 2 * r ^ 2), ← Real.rpow_mul hp.le, ← Real.rpow_add hp]
      norm_num
    rw [e, show (-11 / 6 - 1 : ℝ) = -17 / 6 by norm_num]
    field_simp
    ring
  have hpos : ∀ r ∈ Ioi (0:ℝ), 0 ≤ r ^ 3 * (a + L ^ 2 * r ^ 2) ^ (-17 / 6 : ℝ) := by
    intro r hr
    have : 0 < r := hr
    positivity
  have hlim : Tendsto (fun r : ℝ => -(3 / (5 * L ^ 4)) * (a + L ^ 2 * r ^ 2) ^ (-5 / 6 : ℝ) +
        3 * a / (11 * L ^ 4) * (a + L ^ 2 * r ^ 2) ^ (-11 / 6 : ℝ)) atTop (𝓝 0) := by
    have h1 := (tendsto_lin_rpow_neg (a := a) hL (show (0:ℝ) < 5 / 6 by norm_num)).const_mul (-(3 / (5 * L ^ 4)))
    have h2 := (tendsto_lin_rpow_neg (a := a) hL (show (0:ℝ) < 11 / 6 by norm_num)).const_mul (3 * a / (11 * L ^ 4))
    have := h1.add h2
    rw [mul_zero, mul_zero, add_zero] at this
    rw [show (-11 / 6 : ℝ) = -(11 / 6) by norm_num, show (-5 / 6 : ℝ) = -(5 / 6) by norm_num]
    exact this
  refine ⟨integrableOn_Ioi_deriv_of_nonneg' hd hpos hlim, ?_⟩
  rw [integral_Ioi_of_hasDerivAt_of_nonneg' hd hpos hlim]
  have e : a ^ (-5 / 6 : ℝ) = a ^ (-11 / 6 : ℝ) * a := by
    conv_rhs => rw [← Real.rpow_one a, ← Real.rpow_mul ha.le, ← Real.rpow_add ha]
    norm_num
  simp only [ne_eq, OfNat.ofNat_ne_zero, not_false_eq_true, zero_pow, mul_zero, add_zero]
  rw [e]
  field_simp
  ring

theorem ang_const : ∫ _θ in Ioo (-Real.pi) Real.pi, (1:ℝ) = 2 * Real.pi := by
  simp [Real.pi_pos.le]
  ring

theorem ang_of {f : ℝ → ℝ} : ∫ θ in Ioo (-Real.pi) Real.pi, f θ = ∫ θ in (-Real.pi)..Real.pi, f θ := by
  rw [intervalIntegral.integral_of_le (by linarith [Real.pi_pos]), integral_Ioc_eq_integral_Ioo]

theorem ang_cos : ∫ θ in Ioo (-Real.pi) Real.pi, Real.cos θ = 0 := by rw [ang_of]; simp
theorem ang_sin : ∫ θ in Ioo (-Real.pi) Real.pi, Real.sin θ = 0 := by rw [ang_of]; simp
theorem ang_sin_cos : ∫ θ in Ioo (-Real.pi) Real.pi, Real.sin θ * Real.cos θ = 0 := by
  rw [ang_of, integral_sin_mul_cos₁]; simp
theorem ang_sin_sq : ∫ θ in Ioo (-Real.pi) Real.pi, Real.sin θ ^ 2 = Real.pi := by
  rw [ang_of, integral_sin_sq]; simp
theorem ang_cos_sq : ∫ θ in Ioo (-Real.pi) Real.pi, Real.cos θ ^ 2 = Real.pi := by
  rw [ang_of, integral_cos_sq]; simp

/-- Integral over the plane of `A * B(r,θ)` in polar form as radial times angular part. -/
theorem plane_prod {f : ℝ × ℝ → ℝ} {g h : ℝ → ℝ}
    (hf : ∀ r > 0, ∀ θ, r * f (r * Real.cos θ, r * Real.sin θ) = g r * h θ) :
    ∫ p : ℝ × ℝ, f p = (∫ r in Ioi (0:ℝ), g r) * ∫ θ in Ioo (-Real.pi) Real.pi, h θ := by
  rw [← integral_comp_polarCoord_symm, ← setIntegral_prod_mul, polarCoord_target]
  refine setIntegral_congr_fun (measurableSet_Ioi.prod measurableSet_Ioo) ?_
  rintro ⟨r, θ⟩ ⟨hr, -⟩
  simp only [polarCoord_symm_apply, smul_eq_mul]
  exact hf r hr θ

/-- Two radial/angular products. -/
theorem plane_prod₂ {f : ℝ × ℝ → ℝ} {g h g' h' : ℝ → ℝ}
    (hf : ∀ r > 0, ∀ θ, r * f (r * Real.cos θ, r * Real.sin θ) = g r * h θ + g' r * h' θ)
    (hg : IntegrableOn g (Ioi 0)) (hh : IntegrableOn h (Ioo (-Real.pi) Real.pi))
    (hg' : IntegrableOn g' (Ioi 0)) (hh' : IntegrableOn h' (Ioo (-Real.pi) Real.pi)) :
    ∫ p : ℝ × ℝ, f p = (∫ r in Ioi (0:ℝ), g r) * (∫ θ in Ioo (-Real.pi) Real.pi, h θ) +
      (∫ r in Ioi (0:ℝ), g' r) * ∫ θ in Ioo (-Real.pi) Real.pi, h' θ := by
  rw [← integral_comp_polarCoord_symm, ← setIntegral_prod_mul, ← setIntegral_prod_mul, polarCoord_target,
    ← integral_add]
  · refine setIntegral_congr_fun (measurableSet_Ioi.prod measurableSet_Ioo) ?_
    rintro ⟨r, θ⟩ ⟨hr, -⟩
    simp only [polarCoord_symm_apply, smul_eq_mul]
    exact hf r hr θ
  · rw [← Measure.prod_restrict]
    exact hg.mul_prod hh
  · rw [← Measure.prod_restrict]
    exact hg'.mul_prod hh'

theorem integrableOn_ang {h : ℝ → ℝ} (hc : Continuous h) : IntegrableOn h (Ioo (-Real.pi) Real.pi) :=
  (hc.integrableOn_Icc (a := -Real.pi) (b := Real.pi)).mono_set Ioo_subset_Icc_self

/-- One-point spectra of the von Karman tensor: its integral over the plane `k1 = const`. -/
theorem vk_plane_integral {L : ℝ} (hL : 0 < L) (C : ℝ) {k1 : ℝ} (hk : 0 < k1) (i j : Fin 3) :
    ∫ p : ℝ × ℝ, isoTensor (vkE L C) ![k1, p.1, p.2] i j =
      if i = j then
        if i = 0 then 9 / 55 * C * (L ^ (-2 : ℝ) + k1 ^ 2) ^ (-5 / 6 : ℝ)
        else 3 / 110 * C * (3 * L ^ (-2 : ℝ) + 8 * k1 ^ 2) * (L ^ (-2 : ℝ) + k1 ^ 2) ^ (-11 / 6 : ℝ)
      else 0 := by
  set a := 1 + L ^ 2 * k1 ^ 2 with ha
  have ha0 : 0 < a := by positivity
  set A := C * L ^ (17 / 3 : ℝ) / (4 * Real.pi) with hA
  have hq : ∀ p : ℝ × ℝ, sq3 ![k1, p.1, p.2] = k1 ^ 2 + p.1 ^ 2 + p.2 ^ 2 := fun p => by simp [sq3]
  have hq0 : ∀ p : ℝ × ℝ, 0 < sq3 ![k1, p.1, p.2] := fun p => by rw [hq]; positivity
  have hpol : ∀ r θ : ℝ, 1 + L ^ 2 * sq3 ![k1, r * Real.cos θ, r * Real.sin θ] = a + L ^ 2 * r ^ 2 := by
    intro r θ
    rw [hq (r * Real.cos θ, r * Real.sin θ), ha]
    linear_combination (L ^ 2 * r ^ 2) * Real.sin_sq_add_cos_sq θ
  have hpol' : ∀ r θ : ℝ, sq3 ![k1, r * Real.cos θ, r * Real.sin θ] = k1 ^ 2 + r ^ 2 := by
    intro r θ
    rw [hq (r * Real.cos θ, r * Real.sin θ)]
    linear_combination (r ^ 2) * Real.sin_sq_add_cos_sq θ
  have hLa : L ^ (-2 : ℝ) + k1 ^ 2 = a * L ^ (-2 : ℝ) := by
    have : L ^ (-2 : ℝ) = (L ^ 2)⁻¹ := by rw [Real.rpow_neg hL.le]; norm_cast
    rw [this, ha]; field_simp
  have hLp : ∀ s : ℝ, (a * L ^ (-2 : ℝ)) ^ s = a ^ s * L ^ (-2 * s) := by
    intro s
    rw [Real.mul_rpow ha0.le (by positivity), ← Real.rpow_mul hL.le]
  have hpow : ∀ n : ℕ, L ^ n = L ^ (n : ℝ) := fun n => (Real.rpow_natCast L n).symm
  have e1 : L ^ (17 / 3 : ℝ) = L ^ (-2 * (-5 / 6) : ℝ) * L ^ 4 := by
    rw [hpow 4, ← Real.rpow_add hL]; norm_num
  have e2 : L ^ (17 / 3 : ℝ) = L ^ (-2 * (-11 / 6) : ℝ) * L ^ 2 := by
    rw [hpow 2, ← Real.rpow_add hL]; norm_num
  have hpi := Real.pi_ne_zero
  simp only [isoTensor_vk hL C (hq0 _)]
  -- value of the two diagonal sums
  have hdiag : ∀ f : ℝ × ℝ → ℝ, ∀ h : ℝ → ℝ, Continuous h → (∫ θ in Ioo (-Real.pi) Real.pi, h θ) = Real.pi →
      (∀ r > 0, ∀ θ, r * f (r * Real.cos θ, r * Real.sin θ) =
        (A * k1 ^ 2) * (r * (a + L ^ 2 * r ^ 2) ^ (-17 / 6 : ℝ)) * 1 +
        A * (r ^ 3 * (a + L ^ 2 * r ^ 2) ^ (-17 / 6 : ℝ)) * h θ) →
      ∫ p : ℝ × ℝ, f p = 3 / 110 * C * (3 * L ^ (-2 : ℝ) + 8 * k1 ^ 2) * (L ^ (-2 : ℝ) + k1 ^ 2) ^ (-11 / 6 : ℝ) := by
    intro f h hc hint hf
    rw [plane_prod₂ hf ((radial1 ha0 hL).1.const_mul _) (integrableOn_ang continuous_const)
      ((radial3 ha0 hL).1.const_mul _) (integrableOn_ang hc), hint, ang_const, integral_const_mul, integral_const_mul,
      (radial1 ha0 hL).2, (radial3 ha0 hL).2, hLa, hLp]
    have e : a ^ (-5 / 6 : ℝ) = a ^ (-11 / 6 : ℝ) * a := by
      conv_rhs => rw [← Real.rpow_one a, ← Real.rpow_mul ha0.le, ← Real.rpow_add ha0]
      norm_num
    have e3 : L ^ (-2 : ℝ) = (L ^ 2)⁻¹ := by rw [Real.rpow_neg hL.le]; norm_cast
    rw [e, hA, e2, e3]
    generalize L ^ (-2 * (-11 / 6) : ℝ) = X
    generalize a ^ (-11 / 6 : ℝ) = Y
    rw [ha]
    field_simp
    ring
  have hoff : ∀ f : ℝ × ℝ → ℝ, ∀ g h : ℝ → ℝ, (∫ θ in Ioo (-Real.pi) Real.pi, h θ) = 0 →
      (∀ r > 0, ∀ θ, r * f (r * Real.cos θ, r * Real.sin θ) = g r * h θ) → ∫ p : ℝ × ℝ, f p = 0 := by
    intro f g h hint hf
    rw [plane_prod hf, hint, mul_zero]
  fin_cases i <;> fin_cases j
  · simp only [Fin.zero_eta, Fin.isValue, ↓reduceIte, Matrix.cons_val_zero]
    rw [plane_prod (g := fun r => A * (r ^ 3 * (a + L ^ 2 * r ^ 2) ^ (-17 / 6 : ℝ))) (h := fun _ => 1), ang_const,
      integral_const_mul, (radial3 ha0 hL).2, hLa, hLp, hA, e1]
    · field_simp
      ring
    · intro r hr θ
      simp only [hpol]
      simp only [hpol', hA]
      ring
  · exact hoff _ (fun r => -A * k1 * r ^ 2 * (a + L ^ 2 * r ^ 2) ^ (-17 / 6 : ℝ)) Real.cos ang_cos fun r _ θ => by
      simp [hpol]; ring
  · exact hoff _ (fun r => -A * k1 * r ^ 2 * (a + L ^ 2 * r ^ 2) ^ (-17 / 6 : ℝ)) Real.sin ang_sin fun r _ θ => by
      simp [hpol]; ring
  · exact hoff _ (fun r => -A * k1 * r ^ 2 * (a + L ^ 2 * r ^ 2) ^ (-17 / 6 : ℝ)) Real.cos ang_cos fun r _ θ => by
      simp [hpol]; ring
  · refine hdiag _ (fun θ => Real.sin θ ^ 2) (by fun_prop) ang_sin_sq fun r _ θ => ?_
    simp only [hpol]
    simp only [hpol']
    simp
    linear_combination (A * r ^ 3 * (a + L ^ 2 * r ^ 2) ^ (-17 / 6 : ℝ)) * (-Real.sin_sq_add_cos_sq θ)
  · exact hoff _ (fun r => -A * r ^ 3 * (a + L ^ 2 * r ^ 2) ^ (-17 / 6 : ℝ)) (fun θ => Real.sin θ * Real.cos θ)
      ang_sin_cos fun r _ θ => by simp [hpol]; ring
  · exact hoff _ (fun r => -A * k1 * r ^ 2 * (a + L ^ 2 * r ^ 2) ^ (-17 / 6 : ℝ)) Real.sin ang_sin fun r _ θ => by
      simp [hpol]; ring
  · exact hoff _ (fun r => -A * r ^ 3 * (a + L ^ 2 * r ^ 2) ^ (-17 / 6 : ℝ)) (fun θ => Real.sin θ * Real.cos θ)
      ang_sin_cos fun r _ θ => by simp [hpol]; ring
  · refine hdiag _ (fun θ => Real.cos θ ^ 2) (by fun_prop) ang_cos_sq fun r _ θ => ?_
    simp only [hpol]
    simp only [hpol']
    simp
    linear_combination (A * r ^ 3 * (a + L ^ 2 * r ^ 2) ^ (-17 / 6 : ℝ)) * (-Real.sin_sq_add_cos_sq θ)

end
end Verif
