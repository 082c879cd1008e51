import Verif.Model.Kernels
import Verif.Model.OnePoint
import Mathlib.Tactic.FieldSimp
import Mathlib.Tactic.Ring
import Mathlib.Tactic.LinearCombination
import Mathlib.Tactic.Positivity
import Mathlib.Tactic.FinCases

/-! Helper lemmas: the kernels on finite inputs as real formulas. -/

namespace Verif
open Fl

noncomputable section

/-- Real value of `k30`. -/
def k30R (k : K3) (b : ℝ) : ℝ := k.k3 + b * k.k1
/-- Real value of `kk`. -/
def kkR (k : K3) : ℝ := k.k1 * k.k1 + k.k2 * k.k2 + k.k3 * k.k3
/-- Real value of `kk0`. -/
def kk0R (k : K3) (b : ℝ) : ℝ := k.k1 * k.k1 + k.k2 * k.k2 + k30R k b * k30R k b
/-- Real value of `s`. -/
def sR (k : K3) : ℝ := k.k1 * k.k1 + k.k2 * k.k2
/-- The arctangent factor. -/
def atR (k : K3) (b : ℝ) : ℝ :=
  Complex.arg ⟨kk0R k b - k30R k b * k.k1 * b, b * k.k1 * Real.sqrt (sR k)⟩
/-- Real value of `C1`. -/
def c1R (k : K3) (b : ℝ) : ℝ :=
  b * (k.k1 * k.k1) * (kk0R k b - 2 * (k30R k b * k30R k b) + b * k.k1 * k30R k b) / (kkR k * sR k)
/-- Real value of `C2`. -/
def c2R (k : K3) (b : ℝ) : ℝ := k.k2 * kk0R k b / (sR k) ^ (3 / 2 : ℝ) * atR k b
/-- Real value of `zeta1`. -/
def z1R (k : K3) (b : ℝ) : ℝ := c1R k b - k.k2 / k.k1 * c2R k b
/-- Real value of `zeta2`. -/
def z2R (k : K3) (b : ℝ) : ℝ := k.k2 / k.k1 * c1R k b + c2R k b
/-- Real value of `zeta3`. -/
def z3R (k : K3) (b : ℝ) : ℝ := kk0R k b / kkR k
/-- Real value of `const`. -/
def constR (L E0 kk : ℝ) : ℝ :=
  Real.sqrt (E0 * L ^ (17 / 3 : ℝ) / (4 * Real.pi) / (1 + L ^ 2 * kk) ^ (17 / 6 : ℝ))

variable {k : K3} {b : ℝ}

theorem sR_nonneg (k : K3) : 0 ≤ sR k := by unfold sR; nlinarith [sq_nonneg k.k1, sq_nonneg k.k2]
theorem kkR_nonneg (k : K3) : 0 ≤ kkR k := by
  unfold kkR; nlinarith [sq_nonneg k.k1, sq_nonneg k.k2, sq_nonneg k.k3]
theorem kk0R_nonneg (k : K3) (b : ℝ) : 0 ≤ kk0R k b := by
  unfold kk0R; nlinarith [sq_nonneg k.k1, sq_nonneg k.k2, sq_nonneg (k30R k b)]
theorem sR_pos (h : k.k1 ≠ 0) : 0 < sR k := by
  unfold sR; nlinarith [mul_self_pos.2 h, sq_nonneg k.k2]
theorem kkR_pos (h : k.k1 ≠ 0) : 0 < kkR k := by
  unfold kkR; nlinarith [mul_self_pos.2 h, sq_nonneg k.k2, sq_nonneg k.k3]
theorem kk0R_pos (h : k.k1 ≠ 0) : 0 < kk0R k b := by
  unfold kk0R; nlinarith [mul_self_pos.2 h, sq_nonneg k.k2, sq_nonneg (k30R k b)]

theorem rdtZeta_fin (h : k.k1 ≠ 0) :
    rdtZeta k (fin b) = (fin (z1R k b), fin (z2R k b), fin (z3R k b)) := by
  have hs := sR_pos h
  have hk := kkR_pos h
  have e : k.k1 ^ 2 + k.k2 ^ 2 + k.k3 ^ 2 = kkR k := by unfold kkR; ring
  have hks : kkR k * sR k ≠ 0 := (mul_pos hk hs).ne'
  have hp : (sR k) ^ (3 / 2 : ℝ) ≠ 0 := (Real.rpow_pos_of_pos hs _).ne'
  have hs' : k.k1 * k.k1 + k.k2 * k.k2 = sR k := rfl
  unfold rdtZeta
  simp only [e, fin_mul_fin, fin_add_fin, hs', sqrt_fin hs.le, pow_fin _ hs, fin_sub_fin,
    fin_div_fin _ hks, fin_div_fin _ hp, fin_div_fin _ h, fin_div_fin _ hk.ne', atan2_fin]
  rfl

theorem kernelConst_fin {L E0 kk : ℝ} (hL : 0 < L) (hE : 0 ≤ E0) (hk : 0 ≤ kk) :
    kernelConst L E0 (fin kk) = fin (constR L E0 kk) := by
  have h1 : (0 : ℝ) < 1 + L ^ 2 * kk := by positivity
  have h2 : (1 + L ^ 2 * kk) ^ (17 / 6 : ℝ) ≠ 0 := (Real.rpow_pos_of_pos h1 _).ne'
  have h3 : (4 * Real.pi) ≠ 0 := by positivity
  unfold kernelConst constR
  simp only [one_def, fin_mul_fin, fin_add_fin, pow_fin _ hL, pow_fin _ h1, fin_div_fin _ h3,
    fin_div_fin _ h2]
  rw [sqrt_fin]
  positivity

/-- The coefficients after `nan_to_num`, at every wavevector. -/
def zc (k : K3) (b : ℝ) : ℝ × ℝ × ℝ :=
  (nanToNum (rdtZeta k (fin b)).1, nanToNum (rdtZeta k (fin b)).2.1, nanToNum (rdtZeta k (fin b)).2.2)

theorem zc_generic (h : k.k1 ≠ 0) : zc k b = (z1R k b, z2R k b, z3R k b) := by
  simp [zc, rdtZeta_fin h]

theorem infMul_ne_fin (x y : ℝ) : infMul x ≠ fin y := by
  unfold infMul
  split_ifs <;> simp

theorem infMul_mul_zero (x : ℝ) : infMul x * fin 0 = nan := by
  unfold infMul
  split_ifs <;> simp [pinf_mul_fin, ninf_mul_fin]

theorem zc_k1_zero (h : k.k1 = 0) (hk : kkR k ≠ 0) : zc k b = (0, 0, 1) := by
  obtain ⟨k1, k2, k3⟩ := k
  simp only at h
  subst h
  have e : (0:ℝ) ^ 2 + k2 ^ 2 + k3 ^ 2 = kkR ⟨0, k2, k3⟩ := by unfold kkR; ring
  have e0 : k2 * k2 + k3 * k3 = kkR ⟨0, k2, k3⟩ := by unfold kkR; ring
  have hz3 : (rdtZeta ⟨0, k2, k3⟩ (fin b)).2.2 = fin 1 := by
    unfold rdtZeta
    simp only [e, fin_mul_fin, fin_add_fin, mul_zero, add_zero, zero_add, e0, fin_div_fin _ hk,
      div_self hk]
  have hpos : 0 ≤ kkR ⟨0, k2, k3⟩ := kkR_nonneg _
  rcases eq_or_ne k2 0 with h2 | h2
  · subst h2
    have : (rdtZeta ⟨0, 0, k3⟩ (fin b)).1 = nan ∧ (rdtZeta ⟨0, 0, k3⟩ (fin b)).2.1 = nan := by
      unfold rdtZeta
      simp [fin_div_zero]
    simp [zc, this.1, this.2, hz3]
  · have hs : 0 < k2 * k2 := mul_self_pos.2 h2
    have hp : (k2 * k2) ^ (3 / 2 : ℝ) ≠ 0 := (Real.rpow_pos_of_pos hs _).ne'
    have hks : kkR ⟨0, k2, k3⟩ * (k2 * k2) ≠ 0 := mul_ne_zero hk hs.ne'
    have harg : Complex.arg ⟨kkR ⟨0, k2, k3⟩, 0⟩ = 0 := Complex.arg_ofReal_of_nonneg hpos
    have : (rdtZeta ⟨0, k2, k3⟩ (fin b)).1 = nan ∧ (rdtZeta ⟨0, k2, k3⟩ (fin b)).2.1 = nan := by
      unfold rdtZeta
      simp only [e, fin_mul_fin, fin_add_fin, mul_zero, add_zero, zero_add, e0, fin_sub_fin, zero_mul,
        fin_div_fin _ hks, zero_div, sqrt_fin hs.le, pow_fin _ hs, fin_div_fin _ hp, atan2_fin, sub_zero,
        harg, fin_div_zero, infMul_mul_zero, sub_nan, nan_add, and_self]
    simp [zc, this.1, this.2, hz3]

theorem kkR_eq_zero (h : kkR k = 0) : k.k1 = 0 ∧ k.k2 = 0 ∧ k.k3 = 0 := by
  unfold kkR at h
  refine ⟨?_, ?_, ?_⟩ <;> nlinarith [sq_nonneg k.k1, sq_nonneg k.k2, sq_nonneg k.k3]

theorem zc_zero (hk : kkR k = 0) : zc k b = (0, 0, 0) := by
  obtain ⟨h1, h2, h3⟩ := kkR_eq_zero hk
  obtain ⟨k1, k2, k3⟩ := k
  simp only at h1 h2 h3
  subst h1; subst h2; subst h3
  simp [zc, rdtZeta, fin_div_zero]

/-- Real entries of the sheared kernel (times `const`). -/
def kerR (k : K3) (b : ℝ) : Fin 3 → Fin 3 → ℝ :=
  let z := zc k b
  let t := k30R k b
  ![![-(z.1 * k.k2), -t + z.1 * k.k1, k.k2],
    ![t - z.2.1 * k.k2, z.2.1 * k.k1, -k.k1],
    ![-(z.2.2 * k.k2), z.2.2 * k.k1, 0]]

theorem shearKernel_fin {L E0 : ℝ} (hL : 0 < L) (hE : 0 ≤ E0) (i j : Fin 3) :
    shearKernel L E0 k (fin b) i j = fin (constR L E0 (kk0R k b) * kerR k b i j) := by
  have e : fin k.k1 * fin k.k1 + fin k.k2 * fin k.k2 + (fin k.k3 + fin b * fin k.k1) *
      (fin k.k3 + fin b * fin k.k1) = fin (kk0R k b) := rfl
  have hc := kernelConst_fin hL hE (kk0R_nonneg k b)
  unfold shearKernel
  simp only [e, hc]
  fin_cases i <;> fin_cases j <;>
    simp [crossMat, kerR, zc, k30R] <;> ring

end
end Verif
