import Verif.Props.LowFreqGrid
import Verif.Lemmas.Dft
import Verif.Props.Sampling
import Mathlib.MeasureTheory.Function.L2Space

/-!
# The low-frequency field: incompressibility, mean and second-order statistics (C70, C82)
-/

namespace Verif

noncomputable section
open Classical

variable {n1 n2 : ℕ} [NeZero n1] [NeZero n2]

theorem re_ifftn (Y : Box n1 n2 1 → ℂ) (x : Box n1 n2 1) : (((ifftn Y x).re : ℝ) : ℂ) = ifftn (herm Y) x := by
  rw [← irfftn_eq]
  congr 1
  unfold irfftn ifftn
  rw [show (1 / (voxels n1 n2 1 : ℂ)) = ((1 / (voxels n1 n2 1 : ℝ) : ℝ) : ℂ) by push_cast; rfl, Complex.re_ofReal_mul,
    Complex.re_sum]
  congr 1
  refine Finset.sum_congr rfl fun k _ => ?_
  have : k.2.2.val = 0 := by have := ZMod.val_lt k.2.2; omega
  rw [if_pos (by omega), c2rWeight, if_pos (Or.inl this), one_mul]

theorem herm_one (Y : Box n1 n2 1 → ℂ) (k : Box n1 n2 1) : herm Y k = (Y k + (starRingEnd ℂ) (Y (-k))) / 2 := by
  unfold herm
  have : k.2.2.val = 0 := by have := ZMod.val_lt k.2.2; omega
  rw [if_pos (Or.inl this)]

/-- The transfer function after the imaginary part has been dropped. -/
def lfQr (lf : LowFreq) (i : Fin 2) (k : Box n1 n2 1) : ℂ := (lfQ lf i k + (starRingEnd ℂ) (lfQ lf i (-k))) / 2

theorem fftn_lfFull (lf : LowFreq) (noise : Box n1 n2 1 → ℝ) (i : Fin 2) (k : Box n1 n2 1) :
    fftn (fun x => (lfFull lf noise i x : ℂ)) k = lfQr lf i k * fftn (fun x => (noise x : ℂ)) k := by
  have : (fun x => (lfFull lf noise i x : ℂ)) =
      ifftn (herm fun k => lfQ lf i k * fftn (fun x => (noise x : ℂ)) k) := by
    funext x; unfold lfFull lfField; exact re_ifftn _ _
  rw [this, fftn_ifftn, herm_one, lfQr]
  simp only [map_mul]
  rw [fftn_real, Complex.conj_conj]
  ring

/-- The wavenumber changes sign with the index, except at the Nyquist index. -/
theorem lfFreq_neg {n : ℕ} [NeZero n] (d : ℝ) {j : ZMod n} (h : 2 * j.val ≠ n) : lfFreq n d (-j) = - lfFreq n d j := by
  unfold lfFreq; rw [fftIdx_neg h]; push_cast; ring

theorem neg_of_nyquist {n : ℕ} [NeZero n] {j : ZMod n} (h : 2 * j.val = n) : -j = j := by
  apply ZMod.val_injective
  rw [ZMod.neg_val]
  split_ifs with h0
  · rw [h0]; simp
  · omega

theorem lfFreq_neg_sq {n : ℕ} [NeZero n] (d : ℝ) (j : ZMod n) : lfFreq n d (-j) ^ 2 = lfFreq n d j ^ 2 := by
  by_cases h : 2 * j.val = n
  · rw [neg_of_nyquist h]
  · rw [lfFreq_neg d h]; ring

theorem lfPhi_even {c L psi zi dx dy k1 k2 k1' k2' : ℝ} (h1 : k1' ^ 2 = k1 ^ 2) (h2 : k2' ^ 2 = k2 ^ 2) :
    lfPhi c L psi zi dx dy k1' k2' = lfPhi c L psi zi dx dy k1 k2 := by
  have : lfKappaSq psi k1' k2' = lfKappaSq psi k1 k2 := by
    unfold lfKappaSq; rw [mul_pow, mul_pow, mul_pow, mul_pow, h1, h2]
  unfold lfPhi
  simp only [h1, h2, this]

/-- The amplitude at a mode. -/
def lfAmp (lf : LowFreq) (k : Box n1 n2 1) : ℝ :=
  lfPhi lf.c lf.cfg.L2d lf.cfg.psi lf.cfg.zi lf.compDx lf.compDy (lfFreq n1 lf.compDx k.1) (lfFreq n2 lf.compDy k.2.1)

theorem lfAmp_neg (lf : LowFreq) (k : Box n1 n2 1) : lfAmp lf (-k) = lfAmp lf k :=
  lfPhi_even (lfFreq_neg_sq _ _) (lfFreq_neg_sq _ _)

theorem lfQ_zero_eq (lf : LowFreq) (k : Box n1 n2 1) :
    lfQ lf 0 k = Complex.I * (lfAmp lf k * lfFreq n2 lf.compDy k.2.1 : ℝ) := by
  unfold lfQ lfAmp; push_cast; ring

theorem lfQ_one_eq (lf : LowFreq) (k : Box n1 n2 1) :
    lfQ lf 1 k = Complex.I * (-(lfAmp lf k * lfFreq n1 lf.compDx k.1) : ℝ) := by
  unfold lfQ lfAmp; push_cast; ring

theorem lfQr_zero_eq (lf : LowFreq) (k : Box n1 n2 1) :
    lfQr lf 0 k = if 2 * k.2.1.val = n2 then 0 else Complex.I * (lfAmp lf k * lfFreq n2 lf.compDy k.2.1 : ℝ) := by
  unfold lfQr
  rw [lfQ_zero_eq, lfQ_zero_eq, lfAmp_neg, map_mul, Complex.conj_I, Complex.conj_ofReal]
  rw [show (-k).2.1 = -k.2.1 from rfl]
  split_ifs with h
  · rw [neg_of_nyquist h]; ring
  · rw [lfFreq_neg _ h]; push_cast; ring

theorem lfQr_one_eq (lf : LowFreq) (k : Box n1 n2 1) :
    lfQr lf 1 k = if 2 * k.1.val = n1 then 0 else Complex.I * (-(lfAmp lf k * lfFreq n1 lf.compDx k.1) : ℝ) := by
  unfold lfQr
  rw [lfQ_one_eq, lfQ_one_eq, lfAmp_neg, map_mul, Complex.conj_I, Complex.conj_ofReal]
  rw [show (-k).1 = -k.1 from rfl]
  split_ifs with h
  · rw [neg_of_nyquist h]; ring
  · rw [lfFreq_neg _ h]; push_cast; ring

/-! ### C70 -/

/-- **C70** Before the imaginary part is dropped the spectral arrays are exactly incompressible, at every mode and for
every noise. -/
theorem C70_spectral (lf : LowFreq) (noise : Box n1 n2 1 → ℝ) (k : Box n1 n2 1) :
    (lfFreq n1 lf.compDx k.1 : ℂ) * fftn (lfField lf noise 0) k +
      (lfFreq n2 lf.compDy k.2.1 : ℂ) * fftn (lfField lf noise 1) k = 0 := by
  unfold lfField
  rw [fftn_ifftn, fftn_ifftn, lfQ_zero_eq, lfQ_one_eq]
  push_cast
  ring

/-- **C70** The real fields are incompressible at every mode that is not on a Nyquist line, for every noise. -/
theorem C70_divergence_free (lf : LowFreq) (noise : Box n1 n2 1 → ℝ) {k : Box n1 n2 1} (h1 : 2 * k.1.val ≠ n1)
    (h2 : 2 * k.2.1.val ≠ n2) :
    (lfFreq n1 lf.compDx k.1 : ℂ) * fftn (fun x => (lfFull lf noise 0 x : ℂ)) k +
      (lfFreq n2 lf.compDy k.2.1 : ℂ) * fftn (fun x => (lfFull lf noise 1 x : ℂ)) k = 0 := by
  rw [fftn_lfFull, fftn_lfFull, lfQr_zero_eq, lfQr_one_eq, if_neg h2, if_neg h1]
  push_cast
  ring

/-- **C70** Both full-grid components average to zero, for every noise. -/
theorem C70_zero_mean (lf : LowFreq) (noise : Box n1 n2 1 → ℝ) (i : Fin 2) : ∑ x, lfFull lf noise i x = 0 := by
  have hz : lfQr lf i (0 : Box n1 n2 1) = 0 := by
    have f0 : ∀ (n : ℕ) [NeZero n] (d : ℝ), lfFreq n d (0 : ZMod n) = 0 := by
      intro n _ d; simp [lfFreq, fftIdx, NeZero.pos n]
    fin_cases i
    · change lfQr lf 0 (0 : Box n1 n2 1) = 0
      rw [lfQr_zero_eq]; split_ifs
      · rfl
      · rw [show ((0 : Box n1 n2 1)).2.1 = 0 from rfl, f0]; simp
    · change lfQr lf 1 (0 : Box n1 n2 1) = 0
      rw [lfQr_one_eq]; split_ifs
      · rfl
      · rw [show ((0 : Box n1 n2 1)).1 = 0 from rfl, f0]; simp
  have := fftn_lfFull lf noise i 0
  rw [hz, zero_mul] at this
  unfold fftn at this
  simp only [neg_zero, wave_zero_left, mul_one] at this
  exact_mod_cast this

/-- **C70** restricted to non-Nyquist modes for a reason: on the line `k1 = -pi/dx`, which exists because the number of
points is even, the second component has no content while the first does, so any noise with energy there breaks
incompressibility. -/
theorem C70_nyquist_refuted (lf : LowFreq) (noise : Box n1 n2 1 → ℝ) {k : Box n1 n2 1} (h1 : 2 * k.1.val = n1)
    (h2 : 2 * k.2.1.val ≠ n2) (hk2 : lfFreq n2 lf.compDy k.2.1 ≠ 0) (hk1 : lfFreq n1 lf.compDx k.1 ≠ 0)
    (hphi : lfPhi lf.c lf.cfg.L2d lf.cfg.psi lf.cfg.zi lf.compDx lf.compDy (lfFreq n1 lf.compDx k.1)
      (lfFreq n2 lf.compDy k.2.1) ≠ 0) (hn : fftn (fun x => (noise x : ℂ)) k ≠ 0) :
    fftn (fun x => (lfFull lf noise 1 x : ℂ)) k = 0 ∧
    (lfFreq n1 lf.compDx k.1 : ℂ) * fftn (fun x => (lfFull lf noise 0 x : ℂ)) k +
      (lfFreq n2 lf.compDy k.2.1 : ℂ) * fftn (fun x => (lfFull lf noise 1 x : ℂ)) k ≠ 0 := by
  rw [fftn_lfFull, fftn_lfFull, lfQr_zero_eq, lfQr_one_eq, if_neg h2, if_pos h1]
  refine ⟨zero_mul _, ?_⟩
  rw [zero_mul, mul_zero, add_zero]
  have hphi' : lfAmp lf k ≠ 0 := hphi
  refine mul_ne_zero (by exact_mod_cast hk1) (mul_ne_zero (mul_ne_zero Complex.I_ne_zero ?_) hn)
  exact_mod_cast mul_ne_zero hphi' hk2

/-! ### C82 -/

/-- Impulse response of a scalar filter. -/
theorem lfFull_impulse (lf : LowFreq) (noise : Box n1 n2 1 → ℝ) (i : Fin 2) (x : Box n1 n2 1) :
    (lfFull lf noise i x : ℂ) = ∑ z, (1 / (voxels n1 n2 1 : ℂ) * ∑ k, lfQr lf i k * wave k (x - z)) * noise z := by
  have h : (fun x => (lfFull lf noise i x : ℂ)) = ifftn (fun k => lfQr lf i k * fftn (fun x => (noise x : ℂ)) k) := by
    rw [← ifftn_fftn (fun x => (lfFull lf noise i x : ℂ))]
    congr 1
    funext k
    exact fftn_lfFull lf noise i k
  have hx := congrFun h x
  rw [hx]
  unfold ifftn fftn
  simp only [Finset.mul_sum, Finset.sum_mul]
  rw [Finset.sum_comm]
  refine Finset.sum_congr rfl fun z _ => Finset.sum_congr rfl fun k _ => ?_
  rw [sub_eq_add_neg, wave_add_right, wave_neg_left]
  ring

theorem lfQr_neg (lf : LowFreq) (i : Fin 2) (k : Box n1 n2 1) : lfQr lf i (-k) = (starRingEnd ℂ) (lfQr lf i k) := by
  unfold lfQr
  rw [neg_neg, map_div₀, map_add, Complex.conj_conj, Complex.conj_ofNat, add_comm]

/-- Real impulse response. -/
def lfImp (lf : LowFreq) (i : Fin 2) (d : Box n1 n2 1) : ℝ := (1 / (voxels n1 n2 1 : ℂ) * ∑ k, lfQr lf i k * wave k d).re

theorem lfImp_eq (lf : LowFreq) (i : Fin 2) (d : Box n1 n2 1) :
    (lfImp lf i d : ℂ) = 1 / (voxels n1 n2 1 : ℂ) * ∑ k, lfQr lf i k * wave k d := by
  refine Complex.conj_eq_iff_re.1 ?_
  rw [map_mul, map_div₀, map_one, Complex.conj_natCast, map_sum]
  congr 1
  rw [← Equiv.sum_comp (Equiv.neg _)]
  refine Finset.sum_congr rfl fun k _ => ?_
  simp only [Equiv.neg_apply, map_mul, wave_conj, neg_neg, lfQr_neg, Complex.conj_conj]

theorem lfFull_imp (lf : LowFreq) (noise : Box n1 n2 1 → ℝ) (i : Fin 2) (x : Box n1 n2 1) :
    lfFull lf noise i x = ∑ z, lfImp lf i (x - z) * noise z := by
  have := lfFull_impulse lf noise i x
  simp only [← lfImp_eq] at this
  exact_mod_cast this

theorem lfImp_corr (lf : LowFreq) (i j : Fin 2) (x y : Box n1 n2 1) :
    ((∑ z, lfImp lf i (x - z) * lfImp lf j (y - z) : ℝ) : ℂ) =
      1 / (voxels n1 n2 1 : ℂ) * ∑ k, lfQr lf i k * (starRingEnd ℂ) (lfQr lf j k) * wave k (x - y) := by
  have hv := voxels_ne (n1 := n1) (n2 := n2) (n3 := 1)
  push_cast
  have e : ∀ z, (lfImp lf i (x - z) : ℂ) * (lfImp lf j (y - z) : ℂ) =
      ∑ k, ∑ m, 1 / (voxels n1 n2 1 : ℂ) ^ 2 * (lfQr lf i k * (starRingEnd ℂ) (lfQr lf j m)) *
        (wave k x * wave (-m) y) * wave (m - k) z := by
    intro z
    have hj : (lfImp lf j (y - z) : ℂ) = (starRingEnd ℂ) (lfImp lf j (y - z) : ℂ) := (Complex.conj_ofReal _).symm
    rw [hj, lfImp_eq, lfImp_eq, map_mul, map_div₀, map_one, Complex.conj_natCast, map_sum]
    rw [mul_mul_mul_comm, Finset.sum_mul_sum, Finset.mul_sum]
    refine Finset.sum_congr rfl fun k _ => ?_
    rw [Finset.mul_sum]
    refine Finset.sum_congr rfl fun m _ => ?_
    rw [map_mul, wave_conj, sub_eq_add_neg x, sub_eq_add_neg y, sub_eq_add_neg m, wave_add_right, wave_add_right,
      wave_add_left, ← wave_neg_left, ← wave_neg_left, neg_neg]
    ring
  simp only [e]
  rw [Finset.sum_comm, Finset.mul_sum]
  refine Finset.sum_congr rfl fun k _ => ?_
  rw [Finset.sum_comm]
  simp only [← Finset.mul_sum]
  rw [Finset.sum_eq_single k]
  · rw [sum_wave_left, if_pos (sub_self k), sub_eq_add_neg, wave_add_right, ← wave_neg_left]
    field_simp
  · intro m _ hm
    rw [sum_wave_left, if_neg (sub_ne_zero.2 hm), mul_zero]
  · simp

open MeasureTheory in
theorem lf_cov {Ω : Type} [MeasurableSpace Ω] {μ : Measure Ω} (ξ : Box n1 n2 1 → Ω → ℝ)
    (hL2 : ∀ x, MemLp (ξ x) 2 μ) (hcov : ∀ x y, ∫ ω, ξ x ω * ξ y ω ∂μ = if x = y then 1 else 0)
    (lf : LowFreq) (i j : Fin 2) (x y : Box n1 n2 1) :
    ∫ ω, lfFull lf (fun z => ξ z ω) i x * lfFull lf (fun z => ξ z ω) j y ∂μ =
      ∑ z, lfImp lf i (x - z) * lfImp lf j (y - z) := by
  have hint : ∀ z w, Integrable (fun ω => ξ z ω * ξ w ω) μ := fun z w => (hL2 z).integrable_mul (hL2 w)
  have e : ∀ ω, lfFull lf (fun z => ξ z ω) i x * lfFull lf (fun z => ξ z ω) j y =
      ∑ z, ∑ w, (lfImp lf i (x - z) * lfImp lf j (y - w)) * (ξ z ω * ξ w ω) := by
    intro ω
    rw [lfFull_imp, lfFull_imp, Finset.sum_mul_sum]
    exact Finset.sum_congr rfl fun z _ => Finset.sum_congr rfl fun w _ => by ring
  simp only [e]
  rw [integral_finset_sum _ fun z _ => integrable_finset_sum _ fun w _ => (hint z w).const_mul _]
  refine Finset.sum_congr rfl fun z _ => ?_
  rw [integral_finset_sum _ fun w _ => (hint z w).const_mul _, Finset.sum_eq_single z]
  · rw [integral_const_mul, hcov, if_pos rfl, mul_one]
  · intro w _ hw
    rw [integral_const_mul, hcov, if_neg (Ne.symm hw), mul_zero]
  · simp

end
end Verif
