import Verif.Lemmas.Dft
import Verif.Props.Kernels
import Mathlib.MeasureTheory.Function.L2Space

/-!
# C61 - C66, C81: sampling of the random field
-/

namespace Verif
open Fl

noncomputable section

variable {n1 n2 n3 : ℕ} [NeZero n1] [NeZero n2] [NeZero n3]

/-- Transform of component `l` of the noise. -/
def noiseHat (noise : Box n1 n2 n3 → Fin 3 → ℝ) (l : Fin 3) (k : Box n1 n2 n3) : ℂ :=
  fftn (fun x => (noise x l : ℂ)) k

/-- The array handed to the inverse plan for component `i`. -/
def vfY (S : Box n1 n2 n3 → Matrix (Fin 3) (Fin 3) ℂ) (noise : Box n1 n2 n3 → Fin 3 → ℝ) (i : Fin 3)
    (k : Box n1 n2 n3) : ℂ := ∑ l, spectrumHalf S k i l * noiseHat noise l k

theorem vfCall_eq (S : Box n1 n2 n3 → Matrix (Fin 3) (Fin 3) ℂ) (norm : ℝ)
    (junkX : Buffers n1 n2 n3 → Box n1 n2 n3 → ℝ) (junkY : Buffers n1 n2 n3 → Box n1 n2 n3 → ℂ)
    (noise : Box n1 n2 n3 → Fin 3 → ℝ) (b : Buffers n1 n2 n3) (x : Box n1 n2 n3) (i : Fin 3) :
    (vfCall S norm junkX junkY noise b).1 x i = irfftn (vfY S noise i) x / norm := by
  unfold vfCall
  simp only [List.foldl_cons, List.foldl_nil, fftPlan, ifftPlan]
  have e : ∀ (k : Box n1 n2 n3) (l : Fin 3), Function.update (Function.update (Function.update (b.hatNoise k) 0
      (fftn (fun x => ((noise x 0 : ℝ) : ℂ)) k)) 1 (fftn (fun x => ((noise x 1 : ℝ) : ℂ)) k)) 2
      (fftn (fun x => ((noise x 2 : ℝ) : ℂ)) k) l = noiseHat noise l k := by
    intro k l
    fin_cases l <;> simp [noiseHat, Function.update]
  simp only [e]
  congr 1
  fin_cases i <;> simp [Function.update] <;> rfl

/-! ### C65 -/

/-- **C65** Whatever was sampled before (any sequence of noise arrays, any garbage left in the work arrays), the field
returned for a noise array is the one a fresh sampler returns. -/
theorem C65_stateless (S : Box n1 n2 n3 → Matrix (Fin 3) (Fin 3) ℂ) (norm : ℝ)
    (junkX : Buffers n1 n2 n3 → Box n1 n2 n3 → ℝ) (junkY : Buffers n1 n2 n3 → Box n1 n2 n3 → ℂ)
    (history : List (Box n1 n2 n3 → Fin 3 → ℝ)) (noise : Box n1 n2 n3 → Fin 3 → ℝ) (b b' : Buffers n1 n2 n3) :
    (vfCall S norm junkX junkY noise (history.foldl (fun b m => (vfCall S norm junkX junkY m b).2) b)).1 =
      (vfCall S norm junkX junkY noise b').1 := by
  funext x i
  rw [vfCall_eq, vfCall_eq]

/-! ### C61 -/

theorem vfSample_eq (S : Box n1 n2 n3 → Matrix (Fin 3) (Fin 3) ℂ) (norm : ℝ) (noise : Box n1 n2 n3 → Fin 3 → ℝ)
    (x : Box n1 n2 n3) (i : Fin 3) : vfSample S norm noise x i = irfftn (vfY S noise i) x / norm :=
  vfCall_eq _ _ _ _ _ _ _ _

theorem irfftn_linear (a b : ℝ) (Y Z : Box n1 n2 n3 → ℂ) (x : Box n1 n2 n3) :
    irfftn (fun k => (a : ℂ) * Y k + (b : ℂ) * Z k) x = a * irfftn Y x + b * irfftn Z x := by
  unfold irfftn
  have : ∀ k : Box n1 n2 n3, (if k.2.2.val ≤ n3 / 2 then c2rWeight k * (((a : ℂ) * Y k + (b : ℂ) * Z k) * wave k x).re else 0) =
      a * (if k.2.2.val ≤ n3 / 2 then c2rWeight k * (Y k * wave k x).re else 0) +
      b * (if k.2.2.val ≤ n3 / 2 then c2rWeight k * (Z k * wave k x).re else 0) := by
    intro k
    have e : (((a : ℂ) * Y k + (b : ℂ) * Z k) * wave k x).re = a * (Y k * wave k x).re + b * (Z k * wave k x).re := by
      rw [add_mul, Complex.add_re, mul_assoc, mul_assoc, Complex.re_ofReal_mul, Complex.re_ofReal_mul]
    rw [e]
    split_ifs <;> ring
  simp only [this, Finset.sum_add_distrib, ← Finset.mul_sum]
  ring

theorem irfftn_shift (Y : Box n1 n2 n3 → ℂ) (s x : Box n1 n2 n3) :
    irfftn (fun k => wave k s * Y k) x = irfftn Y (x + s) := by
  unfold irfftn
  congr 1
  refine Finset.sum_congr rfl fun k _ => ?_
  rw [wave_add_right, show wave k s * Y k * wave k x = Y k * (wave k x * wave k s) by ring]

/-- **C61** The sampled field is a linear function of the noise. -/
theorem C61_linear (S : Box n1 n2 n3 → Matrix (Fin 3) (Fin 3) ℂ) (norm a b : ℝ) (f g : Box n1 n2 n3 → Fin 3 → ℝ)
    (x : Box n1 n2 n3) (i : Fin 3) :
    vfSample S norm (fun y l => a * f y l + b * g y l) x i = a * vfSample S norm f x i + b * vfSample S norm g x i := by
  rw [vfSample_eq, vfSample_eq, vfSample_eq]
  have : vfY S (fun y l => a * f y l + b * g y l) i = fun k => (a : ℂ) * vfY S f i k + (b : ℂ) * vfY S g i k := by
    funext k
    simp only [vfY, Finset.mul_sum, ← Finset.sum_add_distrib]
    refine Finset.sum_congr rfl fun l _ => ?_
    have : noiseHat (fun y l => a * f y l + b * g y l) l k = (a : ℂ) * noiseHat f l k + (b : ℂ) * noiseHat g l k := by
      unfold noiseHat
      rw [← fftn_linear]
      congr 1
      funext x
      push_cast
      ring
    rw [this]; ring
  rw [this, irfftn_linear]
  ring

/-- **C61** Shifting the noise circularly shifts the field by the same amount. -/
theorem C61_shift (S : Box n1 n2 n3 → Matrix (Fin 3) (Fin 3) ℂ) (norm : ℝ) (f : Box n1 n2 n3 → Fin 3 → ℝ)
    (s x : Box n1 n2 n3) (i : Fin 3) :
    vfSample S norm (fun y => f (y + s)) x i = vfSample S norm f (x + s) i := by
  rw [vfSample_eq, vfSample_eq, ← irfftn_shift]
  congr 3
  funext k
  simp only [vfY, Finset.mul_sum]
  refine Finset.sum_congr rfl fun l _ => ?_
  have : noiseHat (fun y => f (y + s)) l k = wave k s * noiseHat f l k := by
    unfold noiseHat
    rw [← fftn_shift]
  rw [this]; ring

/-! ### Frequencies and Hermitian symmetry -/

/-- A mode none of whose indices is a Nyquist index. -/
def NonNyquist (k : Box n1 n2 n3) : Prop := 2 * k.1.val ≠ n1 ∧ 2 * k.2.1.val ≠ n2 ∧ 2 * k.2.2.val ≠ n3

theorem fftIdx_neg {n : ℕ} [NeZero n] {j : ZMod n} (h : 2 * j.val ≠ n) : fftIdx n (-j) = - fftIdx n j := by
  have hlt := ZMod.val_lt j
  unfold fftIdx
  rw [ZMod.neg_val]
  by_cases h0 : j = 0
  · subst h0
    simp [NeZero.pos n]
  · have hv : j.val ≠ 0 := fun e => h0 ((ZMod.val_eq_zero _).1 e)
    rw [if_neg h0]
    split_ifs <;> push_cast [hlt.le] <;> omega

theorem freqOf_neg {L1 L2 L3 : ℝ} {k : Box n1 n2 n3} (h : NonNyquist k) :
    freqOf L1 L2 L3 (-k) = (freqOf L1 L2 L3 k).neg := by
  obtain ⟨h1, h2, h3⟩ := h
  unfold freqOf K3.neg
  simp only [Prod.fst_neg, Prod.snd_neg, fftIdx_neg h1, fftIdx_neg h2, fftIdx_neg h3]
  push_cast
  simp only [mul_neg]

theorem freqOf_zero {L1 L2 L3 : ℝ} : (freqOf L1 L2 L3 (0 : Box n1 n2 n3)).vec = 0 := by
  have : ∀ n : ℕ, [NeZero n] → fftIdx n (0 : ZMod n) = 0 := by
    intro n _; simp [fftIdx, NeZero.pos n]
  funext i
  fin_cases i <;> simp [freqOf, K3.vec, this]

/-- Admissible parameters of the covariance kernels: the documented ranges, a positive value of the hypergeometric function
(true of `2F1(1/3, 17/6; 4/3; x)` for `x < 0`), a network that does not map a non-zero wavevector to zero. -/
def GenKernel.Valid : GenKernel → Prop
  | .vk L E0 => 0 < L ∧ 0 ≤ E0
  | .mann hyp L E0 _ => 0 < L ∧ 0 ≤ E0 ∧ ∀ x < 0, 0 < hyp x
  | .nn net L E0 _ h => 0 < L ∧ 0 ≤ E0 ∧ net.Nondegenerate ∧ h ≠ 0

theorem GenKernel.divfree {K : GenKernel} (h : K.Valid) (k : K3) (j : Fin 3) :
    ∑ i, (k.vec i : ℂ) * times1j (K.eval k) i j = 0 := by
  cases K with
  | vk L E0 => exact (C10_vk_kernel h.1 h.2 k).2.1 j
  | mann hyp L E0 G => exact C11_mann_divergence_free G h.1 h.2.1 h.2.2 k j
  | nn net L E0 G hr => exact C11_nn_divergence_free G h.1 h.2.1 h.2.2.1 h.2.2.2 k j

theorem GenKernel.hermitian {K : GenKernel} (h : K.Valid) (k : K3) :
    times1j (K.eval k.neg) = (times1j (K.eval k)).map (starRingEnd ℂ) := by
  cases K with
  | vk L E0 => exact C13_vk_hermitian h.1 h.2 k
  | mann hyp L E0 G => exact C13_mann_hermitian G h.1 h.2.1 h.2.2 k
  | nn net L E0 G hr => exact C13_nn_hermitian G h.1 h.2.1 h.2.2.1 h.2.2.2 k

theorem GenKernel.zero {K : GenKernel} (h : K.Valid) {k : K3} (hk : k.vec = 0) (i j : Fin 3) :
    times1j (K.eval k) i j = 0 := by
  cases K with
  | vk L E0 =>
    have h1 : k.k1 = 0 := congrFun hk 0
    have h2 : k.k2 = 0 := congrFun hk 1
    have h3 : k.k3 = 0 := congrFun hk 2
    have hc := kernelConst_fin h.1 h.2 (kkR_nonneg k)
    simp only [times1j, GenKernel.eval, vkKernel, kkR_pow, hc]
    fin_cases i <;> fin_cases j <;> simp [crossMat, h1, h2, h3]
  | mann hyp L E0 G => simp [times1j, GenKernel.eval, (C12_mann_finite G h.1 h.2.1 h.2.2 k).2 hk i j]
  | nn net L E0 G hr => simp [times1j, GenKernel.eval, (C12_nn_finite G h.1 h.2.1 h.2.2.1 h.2.2.2 k).2 hk i j]

theorem spectrum_hermitian {K : GenKernel} (h : K.Valid) {L1 L2 L3 : ℝ} {k : Box n1 n2 n3} (hk : NonNyquist k) :
    spectrumOf K.eval L1 L2 L3 (-k) = (spectrumOf K.eval L1 L2 L3 k).map (starRingEnd ℂ) := by
  unfold spectrumOf
  rw [freqOf_neg hk, K.hermitian h]

theorem vfY_neg {S : Box n1 n2 n3 → Matrix (Fin 3) (Fin 3) ℂ} {k : Box n1 n2 n3}
    (h : S (-k) = (S k).map (starRingEnd ℂ)) (noise : Box n1 n2 n3 → Fin 3 → ℝ) (i : Fin 3) :
    vfY S noise i (-k) = (starRingEnd ℂ) (vfY S noise i k) := by
  unfold vfY spectrumHalf noiseHat
  rw [map_sum]
  refine Finset.sum_congr rfl fun l _ => ?_
  rw [fftn_real, h]
  simp [Matrix.map_apply]

/-- Transform of the sampled field. -/
theorem fftn_vfSample (S : Box n1 n2 n3 → Matrix (Fin 3) (Fin 3) ℂ) (norm : ℝ) (noise : Box n1 n2 n3 → Fin 3 → ℝ)
    (i : Fin 3) (k : Box n1 n2 n3) :
    fftn (fun x => ((vfSample S norm noise x i : ℝ) : ℂ)) k = herm (vfY S noise i) k / norm := by
  have e : (fun x => ((vfSample S norm noise x i : ℝ) : ℂ)) = fun x => (1 / (norm : ℂ)) * ifftn (herm (vfY S noise i)) x + 0 * 0 := by
    funext x
    rw [vfSample_eq]
    push_cast
    rw [irfftn_eq]
    ring
  rw [e, fftn_linear, fftn_ifftn]
  ring

/-! ### C62 -/

/-- **C62** Every component of the sampled field sums to zero over the periodic noise grid. -/
theorem C62_zero_mean {K : GenKernel} (h : K.Valid) (L1 L2 L3 norm : ℝ) (noise : Box n1 n2 n3 → Fin 3 → ℝ) (i : Fin 3) :
    ∑ x, vfSample (spectrumOf K.eval L1 L2 L3) norm noise x i = 0 := by
  have h0 : fftn (fun x => ((vfSample (spectrumOf K.eval L1 L2 L3) norm noise x i : ℝ) : ℂ)) 0 = 0 := by
    rw [fftn_vfSample]
    have : vfY (spectrumOf K.eval L1 L2 L3) noise i 0 = 0 := by
      unfold vfY spectrumHalf spectrumOf
      refine Finset.sum_eq_zero fun l _ => ?_
      rw [K.zero h freqOf_zero]
      ring
    simp [herm, this]
  have e : fftn (fun x => ((vfSample (spectrumOf K.eval L1 L2 L3) norm noise x i : ℝ) : ℂ)) 0 =
      ((∑ x, vfSample (spectrumOf K.eval L1 L2 L3) norm noise x i : ℝ) : ℂ) := by
    unfold fftn; push_cast; simp
  rw [e] at h0
  exact_mod_cast h0

/-- **C62** The sampled field is divergence free in Fourier space: `k . u_hat(k) = 0` at every mode without Nyquist
index. -/
theorem C62_divergence_free {K : GenKernel} (h : K.Valid) (L1 L2 L3 norm : ℝ) (noise : Box n1 n2 n3 → Fin 3 → ℝ)
    {k : Box n1 n2 n3} (hk : NonNyquist k) :
    ∑ i, ((freqOf L1 L2 L3 k).vec i : ℂ) *
      fftn (fun x => ((vfSample (spectrumOf K.eval L1 L2 L3) norm noise x i : ℝ) : ℂ)) k = 0 := by
  have e : ∀ i, fftn (fun x => ((vfSample (spectrumOf K.eval L1 L2 L3) norm noise x i : ℝ) : ℂ)) k =
      ∑ l, times1j (K.eval (freqOf L1 L2 L3 k)) i l *
        ((Real.sqrt (voxels n1 n2 n3) : ℂ) * noiseHat noise l k / norm) := by
    intro i
    rw [fftn_vfSample, herm_of_hermitian (vfY_neg (spectrum_hermitian h hk) noise i), vfY, Finset.sum_div]
    refine Finset.sum_congr rfl fun l _ => ?_
    simp only [spectrumHalf, spectrumOf]
    ring
  simp only [e, Finset.mul_sum]
  rw [Finset.sum_comm]
  refine Finset.sum_eq_zero fun l _ => ?_
  have := K.divfree h (freqOf L1 L2 L3 k) l
  rw [← zero_mul ((Real.sqrt (voxels n1 n2 n3) : ℂ) * noiseHat noise l k / norm), ← this, Finset.sum_mul]
  exact Finset.sum_congr rfl fun i _ => by ring

/-- Grids with odd sizes have no Nyquist index, so there the previous statement covers all modes. -/
theorem nonNyquist_of_odd (h1 : Odd n1) (h2 : Odd n2) (h3 : Odd n3) (k : Box n1 n2 n3) : NonNyquist k := by
  obtain ⟨a, ha⟩ := h1
  obtain ⟨b, hb⟩ := h2
  obtain ⟨c, hc⟩ := h3
  refine ⟨?_, ?_, ?_⟩ <;> omega

example : (GenKernel.vk 2 3).Valid := ⟨by norm_num, by norm_num⟩
example : (GenKernel.nn (idNet (-1 / 3)) 2 3 1 10).Valid :=
  ⟨by norm_num, by norm_num, idNet_nondegenerate _, by norm_num⟩

theorem noiseHat_delta (l0 l : Fin 3) (k : Box n1 n2 n3) :
    noiseHat (fun x l => if x = 0 ∧ l = l0 then (1 : ℝ) else 0) l k = if l = l0 then 1 else 0 := by
  unfold noiseHat fftn
  rw [Finset.sum_eq_single 0]
  · simp only [true_and, wave_zero_right, mul_one]
    split_ifs <;> simp
  · intro x _ hx; simp [hx]
  · simp

theorem vk_entry {L E0 : ℝ} (hL : 0 < L) (hE : 0 ≤ E0) (k : K3) (i j : Fin 3) :
    times1j (vkKernel L E0 k) i j = Complex.I * ((constR L E0 (kkR k) *
      (![![0, -k.k3, k.k2], ![k.k3, 0, -k.k1], ![-k.k2, k.k1, 0]] : Fin 3 → Fin 3 → ℝ) i j : ℝ) : ℂ) := by
  have hc := kernelConst_fin hL hE (kkR_nonneg k)
  simp only [times1j, vkKernel, kkR_pow, hc]
  fin_cases i <;> fin_cases j <;> simp [crossMat]

theorem constR_pos {L E0 kk : ℝ} (hL : 0 < L) (hE : 0 < E0) (hk : 0 ≤ kk) : 0 < constR L E0 kk := by
  unfold constR
  have := Real.pi_pos
  positivity

/-- The Nyquist restriction of **C62** is needed: on a grid with an even size the sampled field need not be divergence
free at a Nyquist mode. -/
theorem C62_nyquist_restriction : ∃ (noise : Box 2 3 1 → Fin 3 → ℝ) (k : Box 2 3 1),
    ∑ i, ((freqOf (2 * Real.pi) (2 * Real.pi) (2 * Real.pi) k).vec i : ℂ) *
      fftn (fun x => ((vfSample (spectrumOf (GenKernel.vk 1 1).eval (2 * Real.pi) (2 * Real.pi) (2 * Real.pi)) 1 noise
        x i : ℝ) : ℂ)) k ≠ 0 := by
  refine ⟨fun x l => if x = 0 ∧ l = 2 then 1 else 0, (1, 1, 0), ?_⟩
  have hpi : (2 * Real.pi) / (2 * Real.pi) = 1 := div_self (by positivity)
  have f1 : freqOf (2 * Real.pi) (2 * Real.pi) (2 * Real.pi) ((1, 1, 0) : Box 2 3 1) = ⟨-1, 1, 0⟩ := by
    have a : fftIdx 2 1 = -1 := by decide
    have b : fftIdx 3 1 = 1 := by decide
    have c : fftIdx 1 0 = 0 := by decide
    simp only [freqOf, hpi, a, b, c]
    norm_num
  have f2 : freqOf (2 * Real.pi) (2 * Real.pi) (2 * Real.pi) (-(1, 1, 0) : Box 2 3 1) = ⟨-1, -1, 0⟩ := by
    have a : fftIdx 2 (-1) = -1 := by decide
    have b : fftIdx 3 (-1) = -1 := by decide
    have c : fftIdx 1 (-0) = 0 := by decide
    simp only [freqOf, hpi, Prod.neg_mk, a, b, c]
    norm_num
  have hh : ∀ Y : Box 2 3 1 → ℂ, herm Y (1, 1, 0) = (Y (1, 1, 0) + (starRingEnd ℂ) (Y (-(1, 1, 0)))) / 2 := by
    intro Y; unfold herm; rw [if_pos (Or.inl (by decide))]
  have ek1 : kkR ⟨-1, 1, 0⟩ = 2 := by norm_num [kkR]
  have ek2 : kkR ⟨-1, -1, 0⟩ = 2 := by norm_num [kkR]
  have hc := constR_pos (L := 1) (E0 := 1) (kk := 2) one_pos one_pos (by norm_num)
  simp only [fftn_vfSample, hh, vfY, noiseHat_delta, Fin.sum_univ_three, spectrumHalf, spectrumOf, f1, f2,
    GenKernel.eval, vk_entry one_pos zero_le_one, ek1, ek2]
  simp [K3.vec]
  refine ⟨hc.ne', ?_⟩
  simp [voxels]

/-! ### C63 -/

/-- **C63** For a Hermitian spectrum (`S(-k) = conj S(k)` as arrays, which on grids of odd size every entry of the three
kernels satisfies) the array computed by the FFT sampler is real, so that taking its real part loses nothing. -/
theorem C63_real {S : Box n1 n2 n3 → ℂ} (h : ∀ k, S (-k) = (starRingEnd ℂ) (S k)) (noise : Box n1 n2 n3 → ℝ)
    (x : Box n1 n2 n3) : (fftField S noise x).im = 0 := by
  rw [← Complex.conj_eq_iff_im]
  unfold fftField fftn
  rw [map_sum, ← Equiv.sum_comp (Equiv.neg _)]
  refine Finset.sum_congr rfl fun k _ => ?_
  simp only [Equiv.neg_apply, map_mul, wave_conj, neg_neg, h, Complex.conj_conj]
  rw [show wave (-x) k = wave x (-k) from wave_neg_left x k]
  congr 2
  unfold ifftn
  rw [map_mul, map_sum, map_div₀, map_one, Complex.conj_natCast]
  congr 1
  refine Finset.sum_congr rfl fun y _ => ?_
  rw [map_mul, Complex.conj_ofReal, wave_conj, wave_neg_left, neg_neg]

/-- **C63** On grids of odd sizes every entry of the three kernels is Hermitian, for every box. -/
theorem C63_kernels_odd {K : GenKernel} (h : K.Valid) (h1 : Odd n1) (h2 : Odd n2) (h3 : Odd n3) (L1 L2 L3 : ℝ)
    (i j : Fin 3) (noise : Box n1 n2 n3 → ℝ) (x : Box n1 n2 n3) :
    (fftField (fun k => spectrumOf K.eval L1 L2 L3 k i j) noise x).im = 0 := by
  refine C63_real (fun k => ?_) noise x
  rw [spectrum_hermitian h (nonNyquist_of_odd h1 h2 h3 k), Matrix.map_apply]

/-- **C63** With an even size the Nyquist mode breaks this: the inverse transform of the kernel times the transformed noise
is not real. -/
theorem C63_even_not_real : ∃ (noise : Box 2 1 1 → ℝ) (x : Box 2 1 1),
    (fftField (fun k => spectrumOf (GenKernel.vk 1 1).eval (2 * Real.pi) (2 * Real.pi) (2 * Real.pi) k 2 1) noise x).im
      ≠ 0 := by
  refine ⟨fun x => if x = 0 then 1 else 0, 0, ?_⟩
  have hpi : (2 * Real.pi) / (2 * Real.pi) = 1 := div_self (by positivity)
  have hi : ∀ k : Box 2 1 1, ifftn (fun y => (((if y = 0 then 1 else 0 : ℝ)) : ℂ)) k = 1 / 2 := by
    intro k
    unfold ifftn
    rw [Finset.sum_eq_single 0]
    · simp [voxels]
    · intro y _ hy; simp [hy]
    · simp
  unfold fftField fftn
  simp only [hi, neg_zero, wave_zero_left, mul_one]
  have hu : (Finset.univ : Finset (Box 2 1 1)) = {(0, 0, 0), (1, 0, 0)} := by decide
  rw [hu, Finset.sum_pair (by decide)]
  have a0 : fftIdx 2 0 = 0 := by decide
  have a : fftIdx 2 1 = -1 := by decide
  have c : fftIdx 1 0 = 0 := by decide
  have hc := constR_pos (L := 1) (E0 := 1) (kk := 1) one_pos one_pos (by norm_num)
  have ek : kkR ⟨-1, 0, 0⟩ = 1 := by norm_num [kkR]
  simp only [spectrumOf, GenKernel.eval, vk_entry one_pos zero_le_one, freqOf, hpi, a0, a, c]
  simp [ek, hc.ne']

/-! ### C64 -/

/-- **C64** For a real spectrum that is even as an array, the FFTW sampler returns `sqrt(number of voxels)` times the field
of the FFT sampler, for every noise, grid size and normalisation. -/
theorem C64_fft_fftw (s : Box n1 n2 n3 → ℝ) (hs : ∀ k, s (-k) = s k) (norm : ℝ) (noise : Box n1 n2 n3 → ℝ)
    (x : Box n1 n2 n3) :
    fftwCall (fun k => (s k : ℂ)) norm noise x =
      Real.sqrt (voxels n1 n2 n3) * fftCall (fun k => (s k : ℂ)) norm noise x := by
  have hv := voxels_ne (n1 := n1) (n2 := n2) (n3 := n3)
  unfold fftwCall fftCall
  rw [← mul_div_assoc]
  congr 1
  set Y : Box n1 n2 n3 → ℂ := fun k => fftn (fun y => (noise y : ℂ)) k * ((s k : ℂ) * (Real.sqrt (voxels n1 n2 n3) : ℂ)) with hY
  have hherm : herm Y = Y := by
    funext k
    refine herm_of_hermitian ?_
    simp only [hY, fftn_real, hs, map_mul, Complex.conj_ofReal]
  have h1 : ((irfftn Y x : ℝ) : ℂ) = (Real.sqrt (voxels n1 n2 n3) : ℂ) * fftField (fun k => (s k : ℂ)) noise x := by
    rw [irfftn_eq, hherm]
    unfold ifftn fftField
    rw [← Equiv.sum_comp (Equiv.neg _)]
    unfold fftn ifftn
    simp only [Finset.mul_sum, hY, Equiv.neg_apply, fftn, neg_neg, hs]
    refine Finset.sum_congr rfl fun k _ => ?_
    rw [Finset.sum_mul, Finset.sum_mul, Finset.mul_sum, Finset.sum_mul, Finset.mul_sum]
    refine Finset.sum_congr rfl fun y _ => ?_
    rw [wave_comm y k, wave_comm (-x) k, wave_neg_left k x]
    ring
  have h2 := congrArg Complex.re h1
  rw [Complex.ofReal_re, Complex.re_ofReal_mul] at h2
  exact h2

/-- An even spectrum that is not constant. -/
example : ∃ s : Box 5 1 1 → ℝ, (∀ k, s (-k) = s k) ∧ s 0 ≠ s 1 :=
  ⟨fun k => if k = 0 then 1 else 0, fun k => by simp, by
    have : (1 : Box 5 1 1) ≠ 0 := by decide
    simp [this]⟩

/-! ### C81: second-order statistics -/

/-- The response of component `i` at displacement `d` to a unit impulse in component `l` of the noise. -/
def impulse (S : Box n1 n2 n3 → Matrix (Fin 3) (Fin 3) ℂ) (norm : ℝ) (i l : Fin 3) (d : Box n1 n2 n3) : ℂ :=
  (Real.sqrt (voxels n1 n2 n3) : ℂ) / ((voxels n1 n2 n3 : ℂ) * norm) * ∑ k, S k i l * wave k d

theorem impulse_conj {S : Box n1 n2 n3 → Matrix (Fin 3) (Fin 3) ℂ} (h : ∀ k, S (-k) = (S k).map (starRingEnd ℂ))
    (norm : ℝ) (i l : Fin 3) (d : Box n1 n2 n3) :
    (starRingEnd ℂ) (impulse S norm i l d) = impulse S norm i l d := by
  unfold impulse
  rw [map_mul, map_div₀, map_mul, Complex.conj_ofReal, Complex.conj_ofReal, Complex.conj_natCast, map_sum]
  congr 1
  rw [← Equiv.sum_comp (Equiv.neg _)]
  refine Finset.sum_congr rfl fun k _ => ?_
  simp only [Equiv.neg_apply, map_mul, wave_conj, neg_neg, h, Matrix.map_apply, Complex.conj_conj]

theorem vfSample_impulse {S : Box n1 n2 n3 → Matrix (Fin 3) (Fin 3) ℂ} (h : ∀ k, S (-k) = (S k).map (starRingEnd ℂ))
    (norm : ℝ) (noise : Box n1 n2 n3 → Fin 3 → ℝ) (x : Box n1 n2 n3) (i : Fin 3) :
    ((vfSample S norm noise x i : ℝ) : ℂ) = ∑ z, ∑ l, impulse S norm i l (x - z) * noise z l := by
  rw [vfSample_eq]
  push_cast
  rw [irfftn_eq, show herm (vfY S noise i) = vfY S noise i from funext fun k => herm_of_hermitian (vfY_neg (h k) noise i)]
  unfold ifftn vfY spectrumHalf noiseHat fftn impulse
  simp only [Finset.mul_sum, Finset.sum_mul, Finset.sum_div]
  rw [Finset.sum_comm]
  conv_lhs => enter [2, l]; rw [Finset.sum_comm]
  rw [Finset.sum_comm]
  refine Finset.sum_congr rfl fun z _ => Finset.sum_congr rfl fun l _ => Finset.sum_congr rfl fun k _ => ?_
  rw [sub_eq_add_neg, wave_add_right, wave_neg_left, div_mul_eq_div_div]
  ring

/-- Real impulse response. -/
def impulseR (S : Box n1 n2 n3 → Matrix (Fin 3) (Fin 3) ℂ) (norm : ℝ) (i l : Fin 3) (d : Box n1 n2 n3) : ℝ :=
  (impulse S norm i l d).re

theorem impulseR_eq {S : Box n1 n2 n3 → Matrix (Fin 3) (Fin 3) ℂ} (h : ∀ k, S (-k) = (S k).map (starRingEnd ℂ))
    (norm : ℝ) (i l : Fin 3) (d : Box n1 n2 n3) : ((impulseR S norm i l d : ℝ) : ℂ) = impulse S norm i l d :=
  Complex.conj_eq_iff_re.1 (impulse_conj h norm i l d)

theorem vfSample_impulseR {S : Box n1 n2 n3 → Matrix (Fin 3) (Fin 3) ℂ} (h : ∀ k, S (-k) = (S k).map (starRingEnd ℂ))
    (norm : ℝ) (noise : Box n1 n2 n3 → Fin 3 → ℝ) (x : Box n1 n2 n3) (i : Fin 3) :
    vfSample S norm noise x i = ∑ z, ∑ l, impulseR S norm i l (x - z) * noise z l := by
  have := vfSample_impulse h norm noise x i
  simp only [← impulseR_eq h] at this
  exact_mod_cast this

/-- Correlation of two impulse responses. -/
theorem impulse_corr {S : Box n1 n2 n3 → Matrix (Fin 3) (Fin 3) ℂ} (h : ∀ k, S (-k) = (S k).map (starRingEnd ℂ))
    {norm : ℝ} (x y : Box n1 n2 n3) (i j : Fin 3) :
    ((∑ z, ∑ l, impulseR S norm i l (x - z) * impulseR S norm j l (y - z) : ℝ) : ℂ) =
      1 / (norm : ℂ) ^ 2 * ∑ k, (S k * (S k).conjTranspose) i j * wave k (x - y) := by
  have hv := voxels_ne (n1 := n1) (n2 := n2) (n3 := n3)
  have hs : (Real.sqrt (voxels n1 n2 n3) : ℂ) * (Real.sqrt (voxels n1 n2 n3) : ℂ) = (voxels n1 n2 n3 : ℂ) := by
    rw [← Complex.ofReal_mul, Real.mul_self_sqrt (by positivity)]; simp
  push_cast
  have e : ∀ z l, (impulseR S norm i l (x - z) : ℂ) * (impulseR S norm j l (y - z) : ℂ) =
      ∑ k, ∑ m, 1 / ((voxels n1 n2 n3 : ℂ) * (norm : ℂ) ^ 2) * (S k i l * (starRingEnd ℂ) (S m j l)) *
        (wave k x * wave (-m) y) * wave (m - k) z := by
    intro z l
    rw [impulseR_eq h, impulseR_eq h, ← impulse_conj h norm j l (y - z)]
    unfold impulse
    rw [map_mul, map_div₀, map_mul, Complex.conj_ofReal, Complex.conj_ofReal, Complex.conj_natCast, map_sum]
    rw [mul_mul_mul_comm, Finset.sum_mul_sum, Finset.mul_sum]
    refine Finset.sum_congr rfl fun k _ => ?_
    rw [Finset.mul_sum]
    refine Finset.sum_congr rfl fun m _ => ?_
    rw [map_mul, wave_conj, sub_eq_add_neg x, sub_eq_add_neg y, sub_eq_add_neg m, wave_add_right, wave_add_right,
      wave_add_left, ← wave_neg_left, ← wave_neg_left, neg_neg]
    have : (Real.sqrt (voxels n1 n2 n3) : ℂ) / ((voxels n1 n2 n3 : ℂ) * norm) *
        ((Real.sqrt (voxels n1 n2 n3) : ℂ) / ((voxels n1 n2 n3 : ℂ) * norm)) =
        1 / ((voxels n1 n2 n3 : ℂ) * (norm : ℂ) ^ 2) := by
      rw [div_mul_div_comm, hs]
      by_cases hn : (norm : ℂ) = 0
      · simp [hn]
      · field_simp
    rw [this]
    ring
  simp only [e]
  calc ∑ z, ∑ l, ∑ k, ∑ m, 1 / ((voxels n1 n2 n3 : ℂ) * (norm : ℂ) ^ 2) * (S k i l * (starRingEnd ℂ) (S m j l)) *
        (wave k x * wave (-m) y) * wave (m - k) z
      = ∑ l, ∑ k, ∑ m, 1 / ((voxels n1 n2 n3 : ℂ) * (norm : ℂ) ^ 2) * (S k i l * (starRingEnd ℂ) (S m j l)) *
        (wave k x * wave (-m) y) * ∑ z, wave (m - k) z := by
        rw [Finset.sum_comm]
        refine Finset.sum_congr rfl fun l _ => ?_
        rw [Finset.sum_comm]
        refine Finset.sum_congr rfl fun k _ => ?_
        rw [Finset.sum_comm]
        refine Finset.sum_congr rfl fun m _ => ?_
        rw [Finset.mul_sum]
    _ = ∑ l, ∑ k, 1 / (norm : ℂ) ^ 2 * (S k i l * (starRingEnd ℂ) (S k j l)) * wave k (x - y) := by
        refine Finset.sum_congr rfl fun l _ => Finset.sum_congr rfl fun k _ => ?_
        rw [Finset.sum_eq_single k]
        · rw [sum_wave_left, if_pos (sub_self k), sub_eq_add_neg, wave_add_right, ← wave_neg_left, one_div, mul_inv]
          field_simp
        · intro m _ hm
          rw [sum_wave_left, if_neg (sub_ne_zero.2 hm), mul_zero]
        · simp
    _ = _ := by
        rw [Finset.sum_comm, Finset.mul_sum]
        refine Finset.sum_congr rfl fun k _ => ?_
        rw [Matrix.mul_apply, Finset.sum_mul, Finset.mul_sum]
        refine Finset.sum_congr rfl fun l _ => ?_
        rw [Matrix.conjTranspose_apply]
        simp only [Complex.star_def]
        ring

open MeasureTheory in
/-- **C81** If the noise is white (uncorrelated, variance `sigma2`, any square-integrable law), the sampled field is
stationary and its two-point covariance is the discrete Fourier sum of the spectral tensor `S S^*`:
`E[u_i(x) u_j(y)] = sigma2 / norm^2 * sum_k (S S^*)_ij(k) exp(i k (x-y))`. -/
theorem C81_covariance {Ω : Type} [MeasurableSpace Ω] {μ : Measure Ω} (ξ : Box n1 n2 n3 → Fin 3 → Ω → ℝ)
    (hL2 : ∀ x l, MemLp (ξ x l) 2 μ) (sigma2 : ℝ)
    (hcov : ∀ x l y m, ∫ ω, ξ x l ω * ξ y m ω ∂μ = if x = y ∧ l = m then sigma2 else 0)
    {S : Box n1 n2 n3 → Matrix (Fin 3) (Fin 3) ℂ} (h : ∀ k, S (-k) = (S k).map (starRingEnd ℂ)) (norm : ℝ)
    (x y : Box n1 n2 n3) (i j : Fin 3) :
    ((∫ ω, vfSample S norm (fun z l => ξ z l ω) x i * vfSample S norm (fun z l => ξ z l ω) y j ∂μ : ℝ) : ℂ) =
      sigma2 / (norm : ℂ) ^ 2 * ∑ k, (S k * (S k).conjTranspose) i j * wave k (x - y) := by
  have hint : ∀ z l w m, Integrable (fun ω => ξ z l ω * ξ w m ω) μ := fun z l w m => (hL2 z l).integrable_mul (hL2 w m)
  have e : ∀ ω, vfSample S norm (fun z l => ξ z l ω) x i * vfSample S norm (fun z l => ξ z l ω) y j =
      ∑ z, ∑ l, ∑ w, ∑ m, (impulseR S norm i l (x - z) * impulseR S norm j m (y - w)) * (ξ z l ω * ξ w m ω) := by
    intro ω
    rw [vfSample_impulseR h, vfSample_impulseR h, Finset.sum_mul]
    refine Finset.sum_congr rfl fun z _ => ?_
    rw [Finset.sum_mul]
    refine Finset.sum_congr rfl fun l _ => ?_
    rw [Finset.mul_sum]
    refine Finset.sum_congr rfl fun w _ => ?_
    rw [Finset.mul_sum]
    exact Finset.sum_congr rfl fun m _ => by ring
  have hI : ∫ ω, vfSample S norm (fun z l => ξ z l ω) x i * vfSample S norm (fun z l => ξ z l ω) y j ∂μ =
      ∑ z, ∑ l, sigma2 * (impulseR S norm i l (x - z) * impulseR S norm j l (y - z)) := by
    simp only [e]
    rw [integral_finset_sum _ fun z _ => integrable_finset_sum _ fun l _ => integrable_finset_sum _ fun w _ =>
      integrable_finset_sum _ fun m _ => (hint z l w m).const_mul _]
    refine Finset.sum_congr rfl fun z _ => ?_
    rw [integral_finset_sum _ fun l _ => integrable_finset_sum _ fun w _ =>
      integrable_finset_sum _ fun m _ => (hint z l w m).const_mul _]
    refine Finset.sum_congr rfl fun l _ => ?_
    rw [integral_finset_sum _ fun w _ => integrable_finset_sum _ fun m _ => (hint z l w m).const_mul _]
    rw [Finset.sum_eq_single z]
    · rw [integral_finset_sum _ fun m _ => (hint z l z m).const_mul _, Finset.sum_eq_single l]
      · rw [integral_const_mul, hcov, if_pos ⟨rfl, rfl⟩]; ring
      · intro m _ hm
        rw [integral_const_mul, hcov, if_neg (by tauto), mul_zero]
      · simp
    · intro w _ hw
      rw [integral_finset_sum _ fun m _ => (hint z l w m).const_mul _]
      refine Finset.sum_eq_zero fun m _ => ?_
      rw [integral_const_mul, hcov, if_neg (by tauto), mul_zero]
    · simp
  rw [hI]
  simp only [← Finset.mul_sum]
  rw [Complex.ofReal_mul, impulse_corr h]
  ring

open MeasureTheory in
/-- **C81** for the generator: with the code's noise level (variance = cell volume) and normalisation, on a grid of odd
sizes, the covariance is the *average* over the modes of the kernel's spectral tensor times the wave; in particular the
variance depends on the resolution only through that average. -/
theorem C81_generator {Ω : Type} [MeasurableSpace Ω] {μ : Measure Ω} (ξ : Box n1 n2 n3 → Fin 3 → Ω → ℝ)
    (hL2 : ∀ x l, MemLp (ξ x l) 2 μ) {h1 h2 h3 : ℝ} (p1 : 0 < h1) (p2 : 0 < h2) (p3 : 0 < h3)
    (hcov : ∀ x l y m, ∫ ω, ξ x l ω * ξ y m ω ∂μ = if x = y ∧ l = m then h1 * h2 * h3 else 0)
    (o1 : Odd n1) (o2 : Odd n2) (o3 : Odd n3) {K : GenKernel} (hK : K.Valid) (x y : Box n1 n2 n3) (i j : Fin 3) :
    let S : Box n1 n2 n3 → Matrix (Fin 3) (Fin 3) ℂ := spectrumOf K.eval (h1 * n1) (h2 * n2) (h3 * n3)
    ((∫ ω, vfSample S (transformNorm (h1 * n1) (h2 * n2) (h3 * n3)) (fun z l => ξ z l ω) x i *
        vfSample S (transformNorm (h1 * n1) (h2 * n2) (h3 * n3)) (fun z l => ξ z l ω) y j ∂μ : ℝ) : ℂ) =
      1 / (voxels n1 n2 n3 : ℂ) * ∑ k, (S k * (S k).conjTranspose) i j * wave k (x - y) := by
  intro S
  rw [C81_covariance ξ hL2 _ hcov (fun k => spectrum_hermitian hK (nonNyquist_of_odd o1 o2 o3 k))]
  congr 1
  have q1 : (0 : ℝ) < n1 := by exact_mod_cast NeZero.pos n1
  have q2 : (0 : ℝ) < n2 := by exact_mod_cast NeZero.pos n2
  have q3 : (0 : ℝ) < n3 := by exact_mod_cast NeZero.pos n3
  have : (transformNorm (h1 * n1) (h2 * n2) (h3 * n3)) ^ 2 = h1 * h2 * h3 * voxels n1 n2 n3 := by
    rw [transformNorm, Real.sq_sqrt (by positivity), voxels]; push_cast; ring
  rw [← Complex.ofReal_pow, this]
  have hne : (h1 * h2 * h3 : ℝ) ≠ 0 := by positivity
  have hne' : ((h1 * h2 * h3 : ℝ) : ℂ) ≠ 0 := by exact_mod_cast hne
  have hv := voxels_ne (n1 := n1) (n2 := n2) (n3 := n3)
  push_cast at hne' ⊢
  field_simp
  exact div_self hne'

/-! ### C66 -/

/-- **C66** Construction of the random field raises exactly for mixed scalar/array grids, wrong lengths, or an unknown
sampling method (three-dimensional fields). -/
theorem C66_outcome (level : GridArg) (shape : Option GridArg) (dims : List ℝ) (m : MethodName) :
    (∃ g, grfInit 3 level shape dims m = .ok g) ↔
      (∀ s, m ≠ .other s) ∧
      ((∃ l n, level = .scalar l ∧ shape = some (.scalar n)) ∨
       (∃ lv s, level = .array lv ∧ shape = some (.array s) ∧ dims.length = 3 ∧ lv.length = 3 ∧ 3 ≤ s.length)) := by
  unfold grfInit
  cases level with
  | scalar l =>
    rcases shape with _ | (n | s)
    · simp [bind, Except.bind, throw, throwThe, MonadExceptOf.throw]
    · simp only [bind, Except.bind, pure, Except.pure, List.length_replicate, lt_irrefl, if_false]
      cases m <;> simp [setSamplingMethod, throw, throwThe, MonadExceptOf.throw]
    · simp [bind, Except.bind, throw, throwThe, MonadExceptOf.throw]
  | array lv =>
    by_cases hd : dims.length = 3
    · by_cases hl : lv.length = 3
      · rcases shape with _ | (n | s)
        · simp [hd, hl, bind, Except.bind, throw, throwThe, MonadExceptOf.throw, pure, Except.pure]
        · simp [hd, hl, bind, Except.bind, throw, throwThe, MonadExceptOf.throw, pure, Except.pure]
        · by_cases hs : 3 ≤ s.length
          · cases m <;> simp [hd, hl, hs, bind, Except.bind, pure, Except.pure, setSamplingMethod, throw, throwThe,
              MonadExceptOf.throw]
          · simp [hd, hl, bind, Except.bind, throw, throwThe, MonadExceptOf.throw, pure, Except.pure]
            have : s.length < 3 := by omega
            simp [this, hs]
      · simp [hd, hl, bind, Except.bind, throw, throwThe, MonadExceptOf.throw, pure, Except.pure]
    · simp [hd, bind, Except.bind, throw, throwThe, MonadExceptOf.throw, pure, Except.pure]

/-- **C66** For array grids the spacing is `dims / (2^level + 1)`, the domain slice covers the whole grid, the physical
size is spacing times number of points and the noise variance is the cell volume. -/
theorem C66_grid {l1 l2 l3 a b c : ℕ} {d1 d2 d3 : ℝ} (h1 : 0 < d1) (h2 : 0 < d2) (h3 : 0 < d3) {m : MethodName} {g : GRF}
    (hg : grfInit 3 (.array [l1, l2, l3]) (some (.array [a, b, c])) [d1, d2, d3] m = .ok g) :
    g.h = [d1 / (2 ^ l1 + 1), d2 / (2 ^ l2 + 1), d3 / (2 ^ l3 + 1)] ∧ g.gridShape = [a, b, c] ∧
    g.L = [d1 / (2 ^ l1 + 1) * a, d2 / (2 ^ l2 + 1) * b, d3 / (2 ^ l3 + 1) * c] ∧
    g.domainSlice = [(0, a), (0, b), (0, c)] ∧
    g.noiseStd ^ 2 = d1 / (2 ^ l1 + 1) * (d2 / (2 ^ l2 + 1)) * (d3 / (2 ^ l3 + 1)) := by
  unfold grfInit at hg
  cases m <;> simp [bind, Except.bind, pure, Except.pure, setSamplingMethod, throw, throwThe, MonadExceptOf.throw] at hg
  all_goals
    subst hg
    refine ⟨rfl, rfl, rfl, rfl, ?_⟩
    simp only
    rw [Real.sq_sqrt (by positivity)]
    ring

/-- **C66** With a scalar grid level the noise variance is the spacing, not the cell volume: for any positive level it is
larger than the cell volume. -/
theorem C66_scalar_noise {l n : ℕ} (hl : 1 ≤ l) {dims : List ℝ} {m : MethodName} {g : GRF}
    (hg : grfInit 3 (.scalar l) (some (.scalar n)) dims m = .ok g) :
    g.h = [1 / 2 ^ l, 1 / 2 ^ l, 1 / 2 ^ l] ∧ g.noiseStd ^ 2 = 1 / 2 ^ l ∧ g.h.prod < g.noiseStd ^ 2 := by
  have key : g.h = [1 / 2 ^ l, 1 / 2 ^ l, 1 / 2 ^ l] ∧ g.noiseStd ^ 2 = 1 / 2 ^ l := by
    unfold grfInit at hg
    cases m <;> simp [bind, Except.bind, pure, Except.pure, setSamplingMethod, throw, throwThe, MonadExceptOf.throw,
      List.replicate] at hg
    all_goals
      subst hg
      refine ⟨by simp, ?_⟩
      simp only
      rw [inv_pow, Real.sq_sqrt (by positivity), one_div]
  refine ⟨key.1, key.2, ?_⟩
  rw [key.1, key.2]
  have h2 : (1 : ℝ) / 2 ^ l < 1 := by
    rw [div_lt_one (by positivity)]
    exact one_lt_pow₀ (by norm_num) (by omega)
  have h0 : (0 : ℝ) < 1 / 2 ^ l := by positivity
  simp only [List.prod_cons, List.prod_nil, mul_one]
  nlinarith [mul_pos h0 h0]

/-- **C66** An unknown method is remembered as the current one although the call raises. -/
theorem C66_unknown_method (s : String) (g : GRF) :
    (setSamplingMethod (.other s) g).1 = .error .exception ∧ (setSamplingMethod (.other s) g).2.method = .other s :=
  ⟨rfl, rfl⟩

end
end Verif
