import Verif.Lemmas.Beta
import Verif.Model.MannApprox
import Mathlib.Analysis.SpecialFunctions.Pow.Continuity
import Mathlib.Analysis.SpecialFunctions.Pow.Asymptotics

/-! Helper lemmas for eddy lifetimes and energy spectra. -/

namespace Verif
open Fl

noncomputable section

theorem one_mul_fl (x : Fl) : fin 1 * x = x := by
  cases x <;> simp [fin_mul_pinf, fin_mul_ninf, infMul]

theorem fin_mul_assoc_pos {a : ℝ} (ha : 0 < a) (b : ℝ) (x : Fl) : fin a * (fin b * x) = fin (a * b) * x := by
  cases x with
  | nan => simp
  | fin x => simp [mul_assoc]
  | pinf =>
    simp only [fin_mul_pinf]
    rcases lt_trichotomy b 0 with h | h | h
    · rw [infMul_neg h, infMul_neg (mul_neg_of_pos_of_neg ha h), fin_mul_ninf, infMul_neg (by linarith)]
    · simp [h]
    · rw [infMul_pos h, infMul_pos (mul_pos ha h), fin_mul_pinf, infMul_pos ha]
  | ninf =>
    simp only [fin_mul_ninf]
    rcases lt_trichotomy b 0 with h | h | h
    · rw [infMul_pos (by linarith), infMul_pos (by nlinarith), fin_mul_pinf, infMul_pos ha]
    · simp [h]
    · rw [infMul_neg (by linarith), infMul_neg (by nlinarith), fin_mul_ninf, infMul_neg (by linarith)]

theorem vecNorm3 (x y z : ℝ) : vecNorm [x, y, z] = Real.sqrt (x * x + y * y + z * z) := by
  simp [vecNorm, add_assoc]

theorem vecNorm_kkR (k : K3) : vecNorm [k.k1, k.k2, k.k3] = Real.sqrt (kkR k) := by
  rw [vecNorm3]; rfl

theorem vecNorm_smul {L : ℝ} (hL : 0 ≤ L) (k : K3) :
    vecNorm [L * k.k1, L * k.k2, L * k.k3] = L * vecNorm [k.k1, k.k2, k.k3] := by
  rw [vecNorm3, vecNorm3, ← Real.sqrt_sq hL, ← Real.sqrt_mul (sq_nonneg L), Real.sqrt_sq hL]
  congr 1; ring

theorem learnable_pos {x : ℝ} (hx : 0 < x) (p q : ℝ) :
    Learnable_EnergySpectrum (fin x) p q = fin (x ^ p / (1 + x * x) ^ q) := by
  have h1 : 0 < 1 + x * x := by positivity
  unfold Learnable_EnergySpectrum
  simp only [one_def, fin_mul_fin, fin_add_fin, pow_fin _ hx, pow_fin _ h1,
    fin_div_fin _ (Real.rpow_pos_of_pos h1 _).ne']

theorem mann_pos {hyp : ℝ → ℝ} {x : ℝ} (hx : 0 < x) (hh : 0 < hyp (-(x ^ (-2 : ℝ)))) :
    MannEddyLifetime hyp (fin x) = fin (x ^ (-2 / 3 : ℝ) / Real.sqrt (hyp (-(x ^ (-2 : ℝ))))) := by
  unfold MannEddyLifetime
  simp only [pow_fin _ hx, neg_fin, liftR, sqrt_fin hh.le, fin_div_fin _ (Real.sqrt_pos.2 hh).ne']

end
end Verif
