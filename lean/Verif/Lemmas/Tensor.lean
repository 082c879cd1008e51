import Verif.Lemmas.Rdt

/-! The fitter's tensor and the kernels' squares against the textbook tensor. -/

namespace Verif
open Fl Verif.Spec

noncomputable section

variable {k : K3} {b L M : ℝ}

theorem sqrt_cube {s : ℝ} (hs : 0 < s) : Real.sqrt (s * s * s) = s ^ (3 / 2 : ℝ) := by
  rw [rpow_three_half hs, Real.sqrt_mul (mul_self_nonneg s), Real.sqrt_mul_self hs.le]

/-- Real form of the fitter's tensor before the floor. -/
theorem phiRaw_fin (h : k.k1 ≠ 0) (e : ℝ) :
    phiRaw k (fin b) (fin e) =
      { p11 := fin (e / (kk0R k b * kk0R k b) *
          (kk0R k b - k.k1 * k.k1 - 2 * k.k1 * k30R k b * z1R k b + sR k * (z1R k b * z1R k b)))
        p22 := fin (e / (kk0R k b * kk0R k b) *
          (kk0R k b - k.k2 * k.k2 - 2 * k.k2 * k30R k b * z2R k b + sR k * (z2R k b * z2R k b)))
        p33 := fin (e / (kkR k * kkR k) * sR k)
        p13 := fin (e / (kkR k * kk0R k b) * (-k.k1 * k30R k b + sR k * z1R k b))
        p12 := fin (e / (kk0R k b * kk0R k b) *
          (-k.k1 * k.k2 - k.k1 * k30R k b * z2R k b - k.k2 * k30R k b * z1R k b
            + sR k * z1R k b * z2R k b))
        p23 := fin (e / (kkR k * kk0R k b) * (-k.k2 * k30R k b + sR k * z2R k b)) } := by
  have hs := sR_pos h
  have hk := kkR_pos h
  have hk0 := kk0R_pos (b := b) h
  have hs' : k.k1 * k.k1 + k.k2 * k.k2 = sR k := rfl
  have hk' : sR k + k.k3 * k.k3 = kkR k := rfl
  have h30 : k.k3 + b * k.k1 = k30R k b := rfl
  have hk0' : sR k + k30R k b * k30R k b = kk0R k b := rfl
  have hks : kkR k * sR k ≠ 0 := (mul_pos hk hs).ne'
  have hp : (sR k) ^ (3 / 2 : ℝ) ≠ 0 := (Real.rpow_pos_of_pos hs _).ne'
  have hsss : 0 ≤ sR k * sR k * sR k := by positivity
  have e1 : kk0R k b * kk0R k b ≠ 0 := (mul_pos hk0 hk0).ne'
  have e2 : kkR k * kkR k ≠ 0 := (mul_pos hk hk).ne'
  have e3 : kkR k * kk0R k b ≠ 0 := (mul_pos hk hk0).ne'
  have hz2 : c1R k b * k.k2 / k.k1 + c2R k b = z2R k b := by
    unfold z2R; field_simp
  have hz1 : c1R k b - k.k2 / k.k1 * c2R k b = z1R k b := rfl
  have hc1 : b * (k.k1 * k.k1) * (kk0R k b - 2 * (k30R k b * k30R k b) + b * k.k1 * k30R k b) /
    (kkR k * sR k) = c1R k b := rfl
  have hat : Complex.arg ⟨kk0R k b - k30R k b * k.k1 * b, b * k.k1 * Real.sqrt (sR k)⟩ = atR k b := rfl
  have hc2 : k.k2 * kk0R k b / (sR k) ^ (3 / 2 : ℝ) * atR k b = c2R k b := rfl
  unfold phiRaw
  simp only [fin_mul_fin, fin_add_fin, fin_sub_fin, neg_fin, hs', hk', h30, hk0', sqrt_fin hs.le, sqrt_fin hsss,
    sqrt_cube hs, fin_div_fin _ hks, fin_div_fin _ hp, fin_div_fin _ h, atan2_fin, fin_div_fin _ e1,
    fin_div_fin _ e2, fin_div_fin _ e3, hc1, hat, hc2, hz1, hz2]

/-- The energy of `forward` in real form. -/
theorem energyE0_vk (hL : 0 < L) (h : 0 < kk0R k b) :
    energyE0 .vkLike L M k (fin b) = fin (vkE L M (Real.sqrt (kk0R k b))) := by
  have hq : 0 < Real.sqrt (kk0R k b) := Real.sqrt_pos.2 h
  have hLq : 0 < L * Real.sqrt (kk0R k b) := mul_pos hL hq
  have hk0' : k.k1 * k.k1 + k.k2 * k.k2 + (k.k3 + b * k.k1) * (k.k3 + b * k.k1) = kk0R k b := rfl
  have h1 : 0 < 1 + L * Real.sqrt (kk0R k b) * (L * Real.sqrt (kk0R k b)) := by positivity
  have h2 : 0 < Real.sqrt (1 + L * Real.sqrt (kk0R k b) * (L * Real.sqrt (kk0R k b))) := Real.sqrt_pos.2 h1
  unfold energyE0 SpectrumChoice.eval VKLike_EnergySpectrum
  simp only [one_def, fin_mul_fin, fin_add_fin, hk0', sqrt_fin h.le, pow_fin _ hL, pow_fin _ hLq, sqrt_fin h1.le,
    fin_div_fin _ h2.ne', pow_fin _ (div_pos hLq h2)]
  congr 1
  unfold vkE
  rw [Real.mul_rpow hL.le hq.le, show Real.sqrt (kk0R k b) * L = L * Real.sqrt (kk0R k b) by ring,
    show (L * Real.sqrt (kk0R k b)) ^ 2 = L * Real.sqrt (kk0R k b) * (L * Real.sqrt (kk0R k b)) by ring]
  have : L ^ (5 / 3 : ℝ) * L ^ (-5 / 3 : ℝ) = 1 := by
    rw [← Real.rpow_add hL]; norm_num
  linear_combination (M * Real.sqrt (kk0R k b) ^ (-5 / 3 : ℝ) *
    (L * Real.sqrt (kk0R k b) / Real.sqrt (1 + L * Real.sqrt (kk0R k b) * (L * Real.sqrt (kk0R k b)))) ^
      (17 / 3 : ℝ)) * this

/-- The squared kernel amplitude is the von Karman energy over `4π κ⁴`. -/
theorem constR_sq {E0 q : ℝ} (hL : 0 < L) (hE : 0 ≤ E0) (hq : 0 < q) :
    constR L E0 q * constR L E0 q = vkE L E0 (Real.sqrt q) / (4 * Real.pi) / (q * q) := by
  have h1 : (0 : ℝ) < 1 + L ^ 2 * q := by positivity
  have hsq := Real.sqrt_pos.2 hq
  have hqq : q = Real.sqrt q * Real.sqrt q := (Real.mul_self_sqrt hq.le).symm
  unfold constR
  rw [Real.mul_self_sqrt (by positivity)]
  unfold vkE
  have e1 : (Real.sqrt q * L) ^ 2 = L ^ 2 * q := by
    rw [mul_pow, Real.sq_sqrt hq.le]; ring
  rw [e1, Real.div_rpow (by positivity) (Real.sqrt_nonneg _), Real.mul_rpow hsq.le hL.le,
    Real.sqrt_eq_rpow (1 + L ^ 2 * q), ← Real.rpow_mul h1.le]
  have e2 : (1 / 2 * (17 / 3) : ℝ) = 17 / 6 := by norm_num
  rw [e2]
  have e3 : Real.sqrt q ^ (-5 / 3 : ℝ) * Real.sqrt q ^ (17 / 3 : ℝ) = q * q := by
    rw [← Real.rpow_add hsq]
    norm_num
    rw [show Real.sqrt q ^ 4 = (Real.sqrt q * Real.sqrt q) * (Real.sqrt q * Real.sqrt q) by ring, ← hqq]
  have h2 := (Real.rpow_pos_of_pos h1 (17 / 6 : ℝ)).ne'
  have hpi := Real.pi_ne_zero
  field_simp
  rw [show -5 / 3 = -(5 / 3 : ℝ) by norm_num] at e3
  rw [mul_assoc, e3]
  ring

theorem sq3_vec (k : K3) : sq3 k.vec = kkR k := by
  simp [sq3, K3.vec, kkR]; ring

theorem initialWave_vec (k : K3) (b : ℝ) : initialWave k.vec b = K3.vec ⟨k.k1, k.k2, k30R k b⟩ := by
  simp [initialWave, K3.vec, k30R]

theorem distortion_eq (h : k.k1 ≠ 0) :
    distortion k.vec b = !![1, 0, z1R k b; 0, 1, z2R k b; 0, 0, z3R k b] := by
  rw [z1R_eq h, z2R_eq h, z3R_eq]
  simp [distortion, K3.vec, k30R]

theorem kkR_init : kkR ⟨k.k1, k.k2, k30R k b⟩ = kk0R k b := rfl

/-- Entries of the textbook sheared tensor in terms of the closed-form coefficients. -/
theorem shearedTensor_eq (h : k.k1 ≠ 0) (E : ℝ → ℝ) (i j : Fin 3) :
    shearedTensor E k.vec b i j =
      E (Real.sqrt (kk0R k b)) / (4 * Real.pi) / (kk0R k b * kk0R k b) *
        ∑ m, kerR k b i m * kerR k b j m := by
  have hk0 := (kk0R_pos (b := b) h).ne'
  have hpi := Real.pi_ne_zero
  have e : kk0R k b = k.k1 * k.k1 + k.k2 * k.k2 + k30R k b * k30R k b := rfl
  unfold shearedTensor
  rw [distortion_eq h, initialWave_vec]
  have hP : ∀ i j, isoTensor E (K3.vec ⟨k.k1, k.k2, k30R k b⟩) i j =
      E (Real.sqrt (kk0R k b)) / (4 * Real.pi) / (kk0R k b * kk0R k b) * ((if i = j then kk0R k b else 0) -
        K3.vec ⟨k.k1, k.k2, k30R k b⟩ i * K3.vec ⟨k.k1, k.k2, k30R k b⟩ j) := by
    intro i j
    unfold isoTensor
    rw [sq3_vec, kkR_init]
    split_ifs <;> (field_simp; try ring)
  generalize isoTensor E (K3.vec ⟨k.k1, k.k2, k30R k b⟩) = P at hP
  generalize E (Real.sqrt (kk0R k b)) / (4 * Real.pi) / (kk0R k b * kk0R k b) = W at hP
  simp only [kerR, zc_generic h, Matrix.mul_apply, Matrix.transpose_apply, Fin.sum_univ_three, hP, e]
  fin_cases i <;> fin_cases j <;> simp [K3.vec] <;> ring

end
end Verif
