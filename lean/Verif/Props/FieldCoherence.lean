import Verif.Props.FieldSpectrum
import Verif.Props.CoherenceLimit
import Verif.Props.FieldCovarianceLimit

/-!
# Coherence of the sampled field and the fitted coherence: C135
-/

namespace Verif
open Fl MeasureTheory Verif.Spec Filter Topology

noncomputable section

variable {Ω : Type} [MeasurableSpace Ω] {μ : Measure Ω}
variable {n1 n2 n3 : ℕ} [NeZero n1] [NeZero n2] [NeZero n3]

/-- Cross spectrum along x of component `i` of the sampled field on the line `(·, y, z)` and component `j` on the line
`(·, y', z')`, from noise `ξ`. -/
def Spec.fieldCross (μ : Measure Ω) (K : GenKernel) (h1 h2 h3 : ℝ) (ξ : Box n1 n2 n3 → Fin 3 → Ω → ℝ) (y y' : ZMod n2)
    (z z' : ZMod n3) (i j : Fin 3) (q : ZMod n1) : ℂ :=
  lineSpectrum μ h1
    (fun x ω => vfSample (spectrumOf K.eval (h1 * n1) (h2 * n2) (h3 * n3)) (transformNorm (h1 * n1) (h2 * n2) (h3 * n3))
      (fun z l => ξ z l ω) (x, y, z) i)
    (fun x ω => vfSample (spectrumOf K.eval (h1 * n1) (h2 * n2) (h3 * n3)) (transformNorm (h1 * n1) (h2 * n2) (h3 * n3))
      (fun z l => ξ z l ω) (x, y', z') j) q

/-- Magnitude-squared coherence of component `i` between two lines: squared modulus of the cross spectrum over the product of
the two spectra. -/
def Spec.fieldCoherence (μ : Measure Ω) (K : GenKernel) (h1 h2 h3 : ℝ) (ξ : Box n1 n2 n3 → Fin 3 → Ω → ℝ) (y y' : ZMod n2)
    (z z' : ZMod n3) (i : Fin 3) (q : ZMod n1) : ℝ :=
  ‖fieldCross μ K h1 h2 h3 ξ y y' z z' i i q‖ ^ 2 /
    (‖fieldCross μ K h1 h2 h3 ξ y y z z i i q‖ * ‖fieldCross μ K h1 h2 h3 ξ y' y' z' z' i i q‖)

/-- **C135** The cross spectrum between two lines of the field sampled on a grid of odd sizes in the transverse directions, at
every resolved wavenumber: the sum of the kernel's spectral tensor over the transverse wavenumbers, each with the phase of the
separation. -/
theorem C135_cross (ξ : Box n1 n2 n3 → Fin 3 → Ω → ℝ) {h1 h2 h3 : ℝ} (p1 : 0 < h1) (p2 : 0 < h2) (p3 : 0 < h3)
    (hξ : WhiteNoise μ (h1 * h2 * h3) ξ)
    (o2 : Odd n2) (o3 : Odd n3) {K : GenKernel} (hK : K.Valid) (y y' : ZMod n2) (z z' : ZMod n3) (i j : Fin 3)
    (q : ZMod n1) (hq : 2 * q.val ≠ n1) :
    fieldCross μ K h1 h2 h3 ξ y y' z z' i j q = ((h1 / (2 * Real.pi) : ℝ) : ℂ) * ((∑ k2 : ZMod n2, ∑ k3 : ZMod n3,
      (times1j (K.eval (freqOf (h1 * n1) (h2 * n2) (h3 * n3) (q, k2, k3))) *
        (times1j (K.eval (freqOf (h1 * n1) (h2 * n2) (h3 * n3) (q, k2, k3)))).conjTranspose) i j *
        (ZMod.stdAddChar (k2 * (y - y')) * ZMod.stdAddChar (k3 * (z - z')))) / (n2 * n3)) := by
  unfold fieldCross
  obtain ⟨R, -, hR, hc⟩ := C81_generator_any_grid ξ hξ.1 p1 p2 p3 hξ.2 hK
  have hint : ∀ x x', Integrable (fun ω => vfSample (spectrumOf K.eval (h1 * n1) (h2 * n2) (h3 * n3))
      (transformNorm (h1 * n1) (h2 * n2) (h3 * n3)) (fun z l => ξ z l ω) (x, y, z) i *
      vfSample (spectrumOf K.eval (h1 * n1) (h2 * n2) (h3 * n3)) (transformNorm (h1 * n1) (h2 * n2) (h3 * n3))
      (fun z l => ξ z l ω) (x', y', z') j) μ := fun x x' =>
    (vfSample_memLp ξ hξ.1 _ _ _ _).integrable_mul (vfSample_memLp ξ hξ.1 _ _ _ _)
  rw [lineSpectrum_of_cov hint (1 / (voxels n1 n2 n3 : ℂ))
    (fun k => R k i j * (ZMod.stdAddChar (k.2.1 * (y - y')) * ZMod.stdAddChar (k.2.2 * (z - z'))))
    (fun k : Box n1 n2 n3 => k.1) ?_ h1 q]
  · have e : ∑ k : Box n1 n2 n3, (if k.1 = q then R k i j *
        ((ZMod.stdAddChar (k.2.1 * (y - y')) : ℂ) * ZMod.stdAddChar (k.2.2 * (z - z'))) else 0) =
        ∑ k2, ∑ k3, R (q, k2, k3) i j * ((ZMod.stdAddChar (k2 * (y - y')) : ℂ) * ZMod.stdAddChar (k3 * (z - z'))) := by
      rw [Fintype.sum_prod_type, Finset.sum_eq_single q]
      · simp only [if_true]
        rw [Fintype.sum_prod_type]
      · intro k _ hk
        exact Finset.sum_eq_zero fun t _ => if_neg hk
      · simp
    rw [e]
    have e2 : ∀ k2 k3, R (q, k2, k3) i j = (times1j (K.eval (freqOf (h1 * n1) (h2 * n2) (h3 * n3) (q, k2, k3))) *
        (times1j (K.eval (freqOf (h1 * n1) (h2 * n2) (h3 * n3) (q, k2, k3)))).conjTranspose) i j := by
      intro k2 k3
      rw [hR]
      refine ⟨hq, ?_, ?_⟩
      · obtain ⟨m, hm⟩ := o2; simp only; omega
      · obtain ⟨m, hm⟩ := o3; simp only; omega
    simp only [e2]
    have a1 : (n1 : ℂ) ≠ 0 := by exact_mod_cast NeZero.ne n1
    have a2 : (n2 : ℂ) ≠ 0 := by exact_mod_cast NeZero.ne n2
    have a3 : (n3 : ℂ) ≠ 0 := by exact_mod_cast NeZero.ne n3
    have hpi : (Real.pi : ℂ) ≠ 0 := by exact_mod_cast Real.pi_ne_zero
    unfold voxels
    push_cast
    field_simp
  · intro x x'
    rw [hc]
    congr 1
    refine Finset.sum_congr rfl fun k _ => ?_
    simp only [wave, Prod.fst_sub, Prod.snd_sub]
    ring

/-- Fourier integral of `f` over the rectangle of transverse wavenumbers that the spacings resolve, at separations `r2`, `r3`. -/
def Spec.resolvedCross (h2 h3 : ℝ) (f : ℝ → ℝ → ℝ) (r2 r3 : ℝ) : ℂ :=
  ⟨resolved h2 h3 fun k2 k3 => f k2 k3 * Real.cos (k2 * r2 + k3 * r3),
    resolved h2 h3 fun k2 k3 => f k2 k3 * Real.sin (k2 * r2 + k3 * r3)⟩

/-- `Φ` is the tensor of the cross spectra of the fields from kernel `K` in the limit of wide boxes: for spacings `h1, h2, h3`, every
`κ1 ≠ 0`, every separation of `m` cells across and `l` cells up and every tolerance, all boxes with enough (an odd number of)
points in the transverse directions and all white noises give, at a resolved wavenumber `κ1`, the Fourier integral of `Φ` over
the resolved rectangle at this separation, times the cell volume over `(2 pi)^3`. -/
def Spec.CrossLimit (K : GenKernel) (Φ : ℝ → ℝ → ℝ → Fin 3 → Fin 3 → ℝ) : Prop :=
  ∀ h1 h2 h3 κ1 e : ℝ, 0 < h1 → 0 < h2 → 0 < h3 → κ1 ≠ 0 → 0 < e → ∀ m l : ℤ, ∃ N : ℕ,
    ∀ (n1 n2 n3 : ℕ) [NeZero n1] [NeZero n2] [NeZero n3], Odd n2 → Odd n3 → N ≤ n2 → N ≤ n3 →
    ∀ (Ω : Type) [MeasurableSpace Ω] (μ : Measure Ω) (ξ : Box n1 n2 n3 → Fin 3 → Ω → ℝ), WhiteNoise μ (h1 * h2 * h3) ξ →
    ∀ (q : ZMod n1), 2 * q.val ≠ n1 → 2 * Real.pi / (h1 * n1) * fftIdx n1 q = κ1 →
    ∀ (y y' : ZMod n2) (z z' : ZMod n3), (y.val : ℤ) - y'.val = m → (z.val : ℤ) - z'.val = l → ∀ i j,
      ‖fieldCross μ K h1 h2 h3 ξ y y' z z' i j q - ((h1 * h2 * h3 / (2 * Real.pi) ^ 3 : ℝ) : ℂ) *
        resolvedCross h2 h3 (fun k2 k3 => Φ κ1 k2 k3 i j) (h2 * m) (h3 * l)‖ ≤ e

theorem char_phase {n : ℕ} [NeZero n] (k y y' : ZMod n) {m : ℤ} (h : (y.val : ℤ) - y'.val = m) {s : ℝ} (hs : 0 < s) :
    (ZMod.stdAddChar (k * (y - y')) : ℂ) =
      Complex.exp (((2 * Real.pi / (s * n) * fftIdx n k * (s * m) : ℝ) : ℂ) * Complex.I) := by
  have hn : (n : ℂ) ≠ 0 := by exact_mod_cast NeZero.ne n
  have hs' : (s : ℂ) ≠ 0 := by exact_mod_cast hs.ne'
  have e : k * (y - y') = ((fftIdx n k * m : ℤ) : ZMod n) := by
    rw [← h]
    push_cast
    rw [fftIdx_cast]
    simp
  rw [e, ZMod.stdAddChar_coe]
  congr 1
  push_cast
  field_simp

theorem crossLimit_of {K : GenKernel} (hK : K.Valid) {Φ : ℝ → ℝ → ℝ → Fin 3 → Fin 3 → ℝ}
    (hΦ : ∀ k1 k2 k3, k1 ≠ 0 → ∀ i j, (times1j (K.eval ⟨k1, k2, k3⟩) * (times1j (K.eval ⟨k1, k2, k3⟩)).conjTranspose) i j =
      ((Φ k1 k2 k3 i j : ℝ) : ℂ))
    (hc : ∀ k1, k1 ≠ 0 → ∀ i j, Continuous fun q : ℝ × ℝ => Φ k1 q.1 q.2 i j) : CrossLimit K Φ := by
  intro h1 h2 h3 κ1 e p1 p2 p3 hk he m l
  have hpi := Real.pi_pos
  have hb : ∀ f : ℝ → ℝ → ℝ, h1 / (2 * Real.pi) * bandAvg h2 (fun x => bandAvg h3 (f x)) =
      h1 * h2 * h3 / (2 * Real.pi) ^ 3 * resolved h2 h3 f := by
    intro f
    unfold bandAvg resolved
    rw [intervalIntegral.integral_const_mul]
    field_simp
  have he' : 0 < e / 2 / (h1 / (2 * Real.pi)) := by positivity
  obtain ⟨Fc, hFc⟩ : ∃ F : Fin 3 → Fin 3 → ℝ → ℝ → ℝ,
      F = fun i j x y => Φ κ1 x y i j * Real.cos (x * (h2 * m) + y * (h3 * l)) := ⟨_, rfl⟩
  obtain ⟨Fs, hFs⟩ : ∃ F : Fin 3 → Fin 3 → ℝ → ℝ → ℝ,
      F = fun i j x y => Φ κ1 x y i j * Real.sin (x * (h2 * m) + y * (h3 * l)) := ⟨_, rfl⟩
  have cc : ∀ i j, Continuous fun q : ℝ × ℝ => Fc i j q.1 q.2 := by
    intro i j
    rw [hFc]
    exact (hc κ1 hk i j).mul (by fun_prop)
  have cs : ∀ i j, Continuous fun q : ℝ × ℝ => Fs i j q.1 q.2 := by
    intro i j
    rw [hFs]
    exact (hc κ1 hk i j).mul (by fun_prop)
  choose N hN using fun i j => fftAvg2_tendsto (cc i j) p2 p3 he'
  choose N' hN' using fun i j => fftAvg2_tendsto (cs i j) p2 p3 he'
  refine ⟨(∑ i, ∑ j, N i j) + ∑ i, ∑ j, N' i j, ?_⟩
  intro n1 n2 n3 _ _ _ o2 o3 g2 g3 Ω _ μ ξ hξ q hq hκ y y' z z' hy hz i j
  have hle : ∀ M : Fin 3 → Fin 3 → ℕ, M i j ≤ ∑ i, ∑ j, M i j := fun M =>
    (Finset.single_le_sum (f := fun j => M i j) (fun _ _ => Nat.zero_le _) (Finset.mem_univ j)).trans
      (Finset.single_le_sum (f := fun i => ∑ j, M i j) (fun _ _ => Nat.zero_le _) (Finset.mem_univ i))
  have l1 := hle N
  have l2 := hle N'
  have d1 := hN i j n2 n3 o2 o3 (by omega) (by omega)
  have d2 := hN' i j n2 n3 o2 o3 (by omega) (by omega)
  have hA : fieldCross μ K h1 h2 h3 ξ y y' z z' i j q =
      ⟨h1 / (2 * Real.pi) * fftAvg n2 h2 (fun x => fftAvg n3 h3 (Fc i j x)),
        h1 / (2 * Real.pi) * fftAvg n2 h2 (fun x => fftAvg n3 h3 (Fs i j x))⟩ := by
    rw [C135_cross ξ p1 p2 p3 hξ o2 o3 hK y y' z z' i j q hq]
    have e1 : ∀ k2 k3, freqOf (h1 * n1) (h2 * n2) (h3 * n3) (q, k2, k3) =
        ⟨κ1, 2 * Real.pi / (h2 * n2) * fftIdx n2 k2, 2 * Real.pi / (h3 * n3) * fftIdx n3 k3⟩ := by
      intro k2 k3
      unfold freqOf
      rw [← hκ]
    have e2 : ∀ k2 k3, (ZMod.stdAddChar (k2 * (y - y')) : ℂ) * ZMod.stdAddChar (k3 * (z - z')) =
        ⟨Real.cos (2 * Real.pi / (h2 * n2) * fftIdx n2 k2 * (h2 * m) + 2 * Real.pi / (h3 * n3) * fftIdx n3 k3 * (h3 * l)),
          Real.sin (2 * Real.pi / (h2 * n2) * fftIdx n2 k2 * (h2 * m) + 2 * Real.pi / (h3 * n3) * fftIdx n3 k3 * (h3 * l))⟩ := by
      intro k2 k3
      rw [char_phase k2 y y' hy p2, char_phase k3 z z' hz p3, ← Complex.exp_add, ← add_mul, ← Complex.ofReal_add,
        Complex.exp_mul_I, ← Complex.ofReal_cos, ← Complex.ofReal_sin, ← Complex.mk_eq_add_mul_I]
    simp only [e1, hΦ _ _ _ hk, e2]
    have e3 : ∀ k2 k3, ((Φ κ1 (2 * Real.pi / (h2 * n2) * fftIdx n2 k2) (2 * Real.pi / (h3 * n3) * fftIdx n3 k3) i j : ℝ) : ℂ) *
        (⟨Real.cos (2 * Real.pi / (h2 * n2) * fftIdx n2 k2 * (h2 * m) + 2 * Real.pi / (h3 * n3) * fftIdx n3 k3 * (h3 * l)),
          Real.sin (2 * Real.pi / (h2 * n2) * fftIdx n2 k2 * (h2 * m) + 2 * Real.pi / (h3 * n3) * fftIdx n3 k3 * (h3 * l))⟩ : ℂ) =
        ((Fc i j (2 * Real.pi / (h2 * n2) * fftIdx n2 k2) (2 * Real.pi / (h3 * n3) * fftIdx n3 k3) : ℝ) : ℂ) +
        ((Fs i j (2 * Real.pi / (h2 * n2) * fftIdx n2 k2) (2 * Real.pi / (h3 * n3) * fftIdx n3 k3) : ℝ) : ℂ) * Complex.I := by
      intro k2 k3
      rw [hFc, hFs]
      apply Complex.ext <;> simp [-Complex.ofReal_cos, -Complex.ofReal_sin]
    simp only [e3, Finset.sum_add_distrib, ← Finset.sum_mul]
    have e4 : ∀ F : ℝ → ℝ → ℝ, ((fftAvg n2 h2 (fun x => fftAvg n3 h3 (F x)) : ℝ) : ℂ) =
        (∑ k2 : ZMod n2, ∑ k3 : ZMod n3, ((F (2 * Real.pi / (h2 * n2) * fftIdx n2 k2)
          (2 * Real.pi / (h3 * n3) * fftIdx n3 k3) : ℝ) : ℂ)) / (n2 * n3) := by
      intro F
      unfold fftAvg
      rw [← Finset.sum_div, div_div, mul_comm (n3 : ℝ)]
      push_cast
      rfl
    rw [Complex.mk_eq_add_mul_I, Complex.ofReal_mul, Complex.ofReal_mul, e4, e4]
    ring
  have hB : ((h1 * h2 * h3 / (2 * Real.pi) ^ 3 : ℝ) : ℂ) * resolvedCross h2 h3 (fun k2 k3 => Φ κ1 k2 k3 i j) (h2 * m) (h3 * l) =
      ⟨h1 / (2 * Real.pi) * bandAvg h2 (fun x => bandAvg h3 (Fc i j x)),
        h1 / (2 * Real.pi) * bandAvg h2 (fun x => bandAvg h3 (Fs i j x))⟩ := by
    rw [hb, hb, hFc, hFs]
    unfold resolvedCross
    generalize h1 * h2 * h3 / (2 * Real.pi) ^ 3 = v
    apply Complex.ext <;> simp
  have hw : 0 < h1 / (2 * Real.pi) := by positivity
  rw [hA, hB]
  refine (Complex.norm_le_abs_re_add_abs_im _).trans ?_
  simp only [Complex.sub_re, Complex.sub_im]
  rw [← mul_sub, ← mul_sub, abs_mul, abs_mul, abs_of_pos hw]
  rw [le_div_iff₀' hw] at d1 d2
  linarith

/-! ### The tensors of the three kernels -/

/-- `Φ` is the spectral tensor of kernel `K` off the plane `k1 = 0`, with non-negative spectra, and continuous across. -/
def Spec.TensorOf (K : GenKernel) (Φ : ℝ → ℝ → ℝ → Fin 3 → Fin 3 → ℝ) : Prop :=
  (∀ k1 k2 k3, k1 ≠ 0 → ∀ i j, (times1j (K.eval ⟨k1, k2, k3⟩) * (times1j (K.eval ⟨k1, k2, k3⟩)).conjTranspose) i j =
    ((Φ k1 k2 k3 i j : ℝ) : ℂ)) ∧
  ∀ k1, k1 ≠ 0 → (∀ i j, Continuous fun q : ℝ × ℝ => Φ k1 q.1 q.2 i j) ∧ ∀ k2 k3 i, 0 ≤ Φ k1 k2 k3 i i ∧
    (k2 ≠ 0 → 0 < Φ k1 k2 k3 i i)

theorem sheared_diag_pos {k : K3} (h : k.k1 ≠ 0) (h2 : k.k2 ≠ 0) {E : ℝ → ℝ} (hE : ∀ κ, 0 < κ → 0 < E κ) (b : ℝ) (i : Fin 3) :
    0 < shearedTensor E k.vec b i i := by
  have hk0 := kk0R_pos (b := b) h
  have hk := kkR_pos h
  have hpi := Real.pi_pos
  have hEp := hE _ (Real.sqrt_pos.2 hk0)
  rw [shearedTensor_eq h]
  refine mul_pos (by positivity) ?_
  have hq : 0 < kk0R k b / kkR k := div_pos hk0 hk
  have s1 : 0 < k.k1 * k.k1 := mul_self_pos.2 h
  have s2 : 0 < k.k2 * k.k2 := mul_self_pos.2 h2
  have s3 : 0 < kk0R k b / kkR k * k.k1 * (kk0R k b / kkR k * k.k1) := mul_self_pos.2 (mul_ne_zero hq.ne' h)
  simp only [Fin.sum_univ_three, kerR, zc_generic h, z3R]
  fin_cases i <;> simp
  · nlinarith [mul_self_nonneg (k30R k b - z1R k b * k.k1), mul_self_nonneg (z1R k b * k.k2)]
  · nlinarith [mul_self_nonneg (z2R k b * k.k1), mul_self_nonneg (z2R k b * k.k2 - k30R k b)]
  · nlinarith [mul_self_nonneg (kk0R k b / kkR k * k.k2)]

theorem vkE_pos {L E0 κ : ℝ} (hL : 0 < L) (hE : 0 < E0) (hκ : 0 < κ) : 0 < vkE L E0 κ := by
  unfold vkE
  positivity

theorem shear_tensorOf {K : GenKernel} {L M : ℝ} (hL : 0 < L) (hM : 0 < M) (p : OPSParams) (hp : p.LifetimeContinuous)
    (he : ∀ k : K3, k.k1 ≠ 0 → K.eval k = shearKernel L M k (eddyLifetime p.hyp p.ty p.L p.T k)) :
    TensorOf K fun k1 k2 k3 i j =>
      shearedTensor (vkE L M) ![k1, k2, k3] (eddyLifetime p.hyp p.ty p.L p.T ⟨k1, k2, k3⟩).toReal i j := by
  refine ⟨fun k1 k2 k3 h i j => ?_, fun k1 h => ⟨fun i j => ?_, fun k2 k3 i => ⟨?_, fun h2 => ?_⟩⟩⟩
  · obtain ⟨b, -, hb⟩ := hp k1 h
    have hb := hb (k2, k3)
    simp only at hb
    beta_reduce
    rw [he _ h, hb, toReal_fin]
    have := congrFun (congrFun (C14_kernel_square hL hM.le (k := ⟨k1, k2, k3⟩) h (b (k2, k3))) i) j
    simp only [Matrix.map_apply] at this
    exact this
  · obtain ⟨b, hb, e⟩ := hp k1 h
    simp only [e, toReal_fin]
    exact cont_sheared (α := ℝ × ℝ) h continuous_fst continuous_snd hb (energyOf_cont hL M .vkLike) i j
  · exact sheared_diag_nonneg (k := ⟨k1, k2, k3⟩) h (vkE_pos hL hM (Real.sqrt_pos.2 (kk0R_pos h))).le i
  · exact sheared_diag_pos (k := ⟨k1, k2, k3⟩) h h2 (fun κ hκ => vkE_pos hL hM hκ) _ i

theorem vk_tensorOf {L E0 : ℝ} (hL : 0 < L) (hE : 0 < E0) :
    TensorOf (.vk L E0) fun k1 k2 k3 i j => isoTensor (vkE L E0) ![k1, k2, k3] i j := by
  have hv : ∀ k1 k2 k3 : ℝ, k1 ≠ 0 → (K3.mk k1 k2 k3).vec ≠ 0 := fun k1 k2 k3 h h0 => h (by
    have := congrFun h0 0
    simpa [K3.vec] using this)
  have e : ∀ k1 k2 k3 : ℝ, k1 ≠ 0 → isoTensor (vkE L E0) ![k1, k2, k3] = shearedTensor (vkE L E0) (K3.vec ⟨k1, k2, k3⟩) 0 :=
    fun k1 k2 k3 h => by
    have hk : shearSq k1 k2 k3 0 ≠ 0 := by
      unfold shearSq
      have : 0 < k1 ^ 2 := by positivity
      positivity
    have hd : distortion (K3.vec ⟨k1, k2, k3⟩) 0 = 1 := by
      unfold distortion rdt1 rdt2 rdt3
      ext a b
      fin_cases a <;> fin_cases b <;> simp [K3.vec, hk]
    have hi : initialWave (K3.vec ⟨k1, k2, k3⟩) 0 = ![k1, k2, k3] := by
      simp [initialWave, K3.vec]
    unfold shearedTensor
    rw [hd, hi, Matrix.transpose_one, one_mul, mul_one]
  refine ⟨fun k1 k2 k3 h i j => ?_, fun k1 h => ⟨fun i j => ?_, fun k2 k3 i => ?_⟩⟩
  · have := (C10_vk_kernel hL hE.le ⟨k1, k2, k3⟩).2.2 (hv k1 k2 k3 h)
    have h2 := congrFun (congrFun this i) j
    simp only [Matrix.map_apply] at h2
    exact h2
  · simp only [e _ _ _ h]
    exact cont_sheared (α := ℝ × ℝ) h continuous_fst continuous_snd (continuous_const (y := (0:ℝ)))
      (energyOf_cont hL E0 .vkLike) i j
  · beta_reduce
    rw [e _ _ _ h]
    exact ⟨sheared_diag_nonneg (k := ⟨k1, k2, k3⟩) h (vkE_pos hL hE (Real.sqrt_pos.2 (kk0R_pos h))).le i,
      fun h2 => sheared_diag_pos (k := ⟨k1, k2, k3⟩) h h2 (fun κ hκ => vkE_pos hL hE hκ) _ i⟩

theorem mann_tensorOf (p : OPSParams) (hy : IsMannHyp p.hyp) (ht : p.ty = .mann) (hs : p.sp = .vkLike) :
    TensorOf (.mann p.hyp p.L p.M p.T) (Spec.fitTensor p) := by
  have h := shear_tensorOf (K := .mann p.hyp p.L p.M p.T) p.L_pos p.M_pos p (lifetimeContinuous_of p (by rw [ht]; exact hy))
    (fun k hk => ?_)
  · have e : (fun k1 k2 k3 i j => shearedTensor (vkE p.L p.M) ![k1, k2, k3]
        (eddyLifetime p.hyp p.ty p.L p.T ⟨k1, k2, k3⟩).toReal i j) = Spec.fitTensor p := by
      funext k1 k2 k3 i j
      unfold Spec.fitTensor
      rw [hs]
      rfl
    rw [← e]
    exact h
  · have hv : k.vec ≠ 0 := fun h0 => hk (by
      have := congrFun h0 0
      simpa [K3.vec] using this)
    rw [ht, ← C03_mann_lifetime_agrees p.hyp p.L_pos p.T hv]
    rfl

theorem nn_tensorOf (net : TauNet) (hn : net.Nondegenerate) (ha : net.ContActs) {L E0 Γ h : ℝ} (hL : 0 < L) (hE : 0 < E0)
    (hΓ : 0 < Γ) (hh : 0 < h) (hyp : ℝ → ℝ) :
    TensorOf (.nn net L E0 Γ h) fun k1 k2 k3 i j =>
      shearedTensor (vkE L E0) ![k1, k2, k3] (eddyLifetime hyp (.taunet net) h Γ ⟨k1, k2, k3⟩).toReal i j := by
  let p : OPSParams := ⟨hyp, .taunet net, .vkLike, Real.log h, Real.log Γ, 0⟩
  have e1 : p.L = h := Real.exp_log hh
  have e2 : p.T = Γ := Real.exp_log hΓ
  have hl := shear_tensorOf (K := .nn net L E0 Γ h) hL hE p (lifetimeContinuous_of p ⟨hn, ha⟩) (fun k hk => ?_)
  · rw [e1, e2] at hl
    exact hl
  · have hv : k.vec ≠ 0 := fun h0 => hk (by
      have := congrFun h0 0
      simpa [K3.vec] using this)
    rw [e1, e2]
    have := C16_missing_length_scale hyp net hh.ne' Γ h hv
    rw [div_self hh.ne'] at this
    have ek : k.smul 1 = k := by simp [K3.smul]
    rw [ek] at this
    rw [show p.ty = .taunet net from rfl, show p.hyp = hyp from rfl, ← this]
    rfl

/-! ### Limit of the coherence -/

/-- Coherence of a density over the resolved rectangle at separations `r2`, `r3`. -/
def Spec.bandCoherence (h2 h3 : ℝ) (f : ℝ → ℝ → ℝ) (r2 r3 : ℝ) : ℝ :=
  ‖resolvedCross h2 h3 f r2 r3‖ ^ 2 / resolved h2 h3 f ^ 2

/-- The coherence of every component between lines `m` cells across and `l` cells up apart tends to that of `Φ`, which is
well defined. -/
def Spec.FieldCoherenceLimit (K : GenKernel) (Φ : ℝ → ℝ → ℝ → Fin 3 → Fin 3 → ℝ) : Prop :=
  ∀ h1 h2 h3 κ1 : ℝ, 0 < h1 → 0 < h2 → 0 < h3 → κ1 ≠ 0 →
    (∀ i, 0 < resolved h2 h3 fun k2 k3 => Φ κ1 k2 k3 i i) ∧
    ∀ e : ℝ, 0 < e → ∀ m l : ℤ, ∃ N : ℕ,
    ∀ (n1 n2 n3 : ℕ) [NeZero n1] [NeZero n2] [NeZero n3], Odd n2 → Odd n3 → N ≤ n2 → N ≤ n3 →
    ∀ (Ω : Type) [MeasurableSpace Ω] (μ : Measure Ω) (ξ : Box n1 n2 n3 → Fin 3 → Ω → ℝ), WhiteNoise μ (h1 * h2 * h3) ξ →
    ∀ (q : ZMod n1), 2 * q.val ≠ n1 → 2 * Real.pi / (h1 * n1) * fftIdx n1 q = κ1 →
    ∀ (y y' : ZMod n2) (z z' : ZMod n3), (y.val : ℤ) - y'.val = m → (z.val : ℤ) - z'.val = l → ∀ i,
      |fieldCoherence μ K h1 h2 h3 ξ y y' z z' i q -
        bandCoherence h2 h3 (fun k2 k3 => Φ κ1 k2 k3 i i) (h2 * m) (h3 * l)| ≤ e

theorem resolved_pos {f : ℝ → ℝ → ℝ} (hf : Continuous fun q : ℝ × ℝ => f q.1 q.2) (h0 : ∀ x y, 0 ≤ f x y)
    (hp : ∀ x y, x ≠ 0 → 0 < f x y) {h2 h3 : ℝ} (p2 : 0 < h2) (p3 : 0 < h3) : 0 < resolved h2 h3 f := by
  have hpi := Real.pi_pos
  have a2 : 0 < Real.pi / h2 := by positivity
  have a3 : 0 < Real.pi / h3 := by positivity
  have inner : Continuous fun x => ∫ y in (-(Real.pi / h3))..(Real.pi / h3), f x y :=
    intervalIntegral.continuous_parametric_intervalIntegral_of_continuous' hf _ _
  have col : ∀ x, Continuous fun y => f x y := fun x => hf.comp (Continuous.prodMk_right x)
  unfold resolved
  rw [← intervalIntegral.integral_add_adjacent_intervals (b := 0) (inner.intervalIntegrable _ _) (inner.intervalIntegrable _ _)]
  refine add_pos_of_nonneg_of_pos ?_ ?_
  · exact intervalIntegral.integral_nonneg (by linarith) fun x _ => intervalIntegral.integral_nonneg (by linarith) fun y _ => h0 x y
  · refine intervalIntegral.intervalIntegral_pos_of_pos_on (inner.intervalIntegrable _ _) (fun x hx => ?_) a2
    exact intervalIntegral.intervalIntegral_pos_of_pos_on ((col x).intervalIntegrable _ _) (fun y _ => hp x y hx.1.ne') (by linarith)

theorem resolvedCross_zero (h2 h3 : ℝ) (f : ℝ → ℝ → ℝ) : resolvedCross h2 h3 f (h2 * (0 : ℤ)) (h3 * (0 : ℤ)) = (resolved h2 h3 f : ℂ) := by
  unfold resolvedCross
  apply Complex.ext
  · simp
  · simp [resolved]

theorem coherenceLimit_of {K : GenKernel} (hK : K.Valid) {Φ : ℝ → ℝ → ℝ → Fin 3 → Fin 3 → ℝ} (hT : TensorOf K Φ) :
    FieldCoherenceLimit K Φ := by
  intro h1 h2 h3 κ1 p1 p2 p3 hk
  have hpi := Real.pi_pos
  have hpos : ∀ i, 0 < resolved h2 h3 fun k2 k3 => Φ κ1 k2 k3 i i := fun i =>
    resolved_pos (f := fun k2 k3 => Φ κ1 k2 k3 i i) ((hT.2 κ1 hk).1 i i) (fun x y => ((hT.2 κ1 hk).2 x y i).1)
      (fun x y hx => ((hT.2 κ1 hk).2 x y i).2 hx) p2 p3
  refine ⟨hpos, fun e he m l => ?_⟩
  have hC := crossLimit_of hK hT.1 fun k1 h => (hT.2 k1 h).1
  obtain ⟨v, hv⟩ : ∃ v, v = h1 * h2 * h3 / (2 * Real.pi) ^ 3 := ⟨_, rfl⟩
  have v0 : 0 < v := by rw [hv]; positivity
  have key : ∀ i : Fin 3, ∃ d > 0, ∀ A B C : ℂ,
      ‖A - (v : ℂ) * resolvedCross h2 h3 (fun k2 k3 => Φ κ1 k2 k3 i i) (h2 * m) (h3 * l)‖ ≤ d →
      ‖B - (v : ℂ) * (resolved h2 h3 (fun k2 k3 => Φ κ1 k2 k3 i i) : ℂ)‖ ≤ d →
      ‖C - (v : ℂ) * (resolved h2 h3 (fun k2 k3 => Φ κ1 k2 k3 i i) : ℂ)‖ ≤ d →
      |‖A‖ ^ 2 / (‖B‖ * ‖C‖) - bandCoherence h2 h3 (fun k2 k3 => Φ κ1 k2 k3 i i) (h2 * m) (h3 * l)| ≤ e := by
    intro i
    obtain ⟨I, hI⟩ : ∃ I, I = resolved h2 h3 (fun k2 k3 => Φ κ1 k2 k3 i i) := ⟨_, rfl⟩
    obtain ⟨Z, hZ⟩ : ∃ Z, Z = resolvedCross h2 h3 (fun k2 k3 => Φ κ1 k2 k3 i i) (h2 * m) (h3 * l) := ⟨_, rfl⟩
    have I0 : 0 < I := by rw [hI]; exact hpos i
    have n0 : ‖(v : ℂ) * (I : ℂ)‖ ≠ 0 := by
      rw [norm_ne_zero_iff]
      exact_mod_cast (mul_pos v0 I0).ne'
    have hcont : ContinuousAt (fun q : ℂ × ℂ × ℂ => ‖q.1‖ ^ 2 / (‖q.2.1‖ * ‖q.2.2‖)) ((v : ℂ) * Z, (v : ℂ) * I, (v : ℂ) * I) := by
      refine ContinuousAt.div (by fun_prop) (by fun_prop) ?_
      exact mul_ne_zero n0 n0
    obtain ⟨d, hd, hd'⟩ := Metric.continuousAt_iff.1 hcont e he
    refine ⟨d / 2, by linarith, fun A B C hA hB hC => ?_⟩
    rw [← hZ] at hA
    rw [← hI] at hB hC
    have := hd' (x := (A, B, C)) (by
      simp only [Prod.dist_eq, max_lt_iff]
      simp only [dist_eq_norm]
      exact ⟨by linarith, by linarith, by linarith⟩)
    rw [Real.dist_eq] at this
    have ev : bandCoherence h2 h3 (fun k2 k3 => Φ κ1 k2 k3 i i) (h2 * m) (h3 * l) =
        ‖(v : ℂ) * Z‖ ^ 2 / (‖(v : ℂ) * (I : ℂ)‖ * ‖(v : ℂ) * (I : ℂ)‖) := by
      unfold bandCoherence
      rw [← hZ, ← hI, norm_mul, norm_mul, Complex.norm_real, Complex.norm_real, Real.norm_eq_abs, Real.norm_eq_abs,
        abs_of_pos v0, abs_of_pos I0]
      field_simp
    rw [ev]
    exact this.le
  choose d d0 hd using key
  choose N hN using fun i => hC h1 h2 h3 κ1 (d i) p1 p2 p3 hk (d0 i) m l
  choose N' hN' using fun i => hC h1 h2 h3 κ1 (d i) p1 p2 p3 hk (d0 i) 0 0
  refine ⟨(∑ i, N i) + ∑ i, N' i, ?_⟩
  intro n1 n2 n3 _ _ _ o2 o3 g2 g3 Ω _ μ ξ hξ q hq hκ y y' z z' hy hz i
  have l1 := Finset.single_le_sum (f := fun i => N i) (fun _ _ => Nat.zero_le _) (Finset.mem_univ i)
  have l2 := Finset.single_le_sum (f := fun i => N' i) (fun _ _ => Nat.zero_le _) (Finset.mem_univ i)
  have a1 := hN i n1 n2 n3 o2 o3 (by omega) (by omega) Ω μ ξ hξ q hq hκ y y' z z' hy hz i i
  have a2 := hN' i n1 n2 n3 o2 o3 (by omega) (by omega) Ω μ ξ hξ q hq hκ y y z z (by simp) (by simp) i i
  have a3 := hN' i n1 n2 n3 o2 o3 (by omega) (by omega) Ω μ ξ hξ q hq hκ y' y' z' z' (by simp) (by simp) i i
  rw [← hv] at a1 a2 a3
  rw [resolvedCross_zero] at a2 a3
  exact hd i _ _ _ a1 a2 a3

/-- **C135** Fields of the von Karman generator: the coherence of the isotropic tensor. -/
theorem C135_vk {L E0 : ℝ} (hL : 0 < L) (hE : 0 < E0) :
    FieldCoherenceLimit (.vk L E0) fun k1 k2 k3 i j => isoTensor (vkE L E0) ![k1, k2, k3] i j :=
  coherenceLimit_of (K := .vk L E0) ⟨hL, hE.le⟩ (vk_tensorOf hL hE)

/-- **C135** Fields of the Mann generator: the coherence of the tensor that the fitter, with the same length, magnitude and time
scales and the Mann lifetime, stands for. -/
theorem C135_mann (p : OPSParams) (hy : IsMannHyp p.hyp) (ht : p.ty = .mann) (hs : p.sp = .vkLike) :
    FieldCoherenceLimit (.mann p.hyp p.L p.M p.T) (Spec.fitTensor p) :=
  coherenceLimit_of (K := .mann p.hyp p.L p.M p.T) ⟨p.L_pos, p.M_pos.le, fun _ hx => IsHyp2F1.mann_hyp_pos hy hx.le⟩
    (mann_tensorOf p hy ht hs)

/-- **C135** Fields of the generator with a network: the coherence of the von Karman tensor sheared with the lifetime of the
network at length scale `h`. -/
theorem C135_nn (net : TauNet) (hn : net.Nondegenerate) (ha : net.ContActs) {L E0 Γ h : ℝ} (hL : 0 < L) (hE : 0 < E0)
    (hΓ : 0 < Γ) (hh : 0 < h) (hyp : ℝ → ℝ) :
    FieldCoherenceLimit (.nn net L E0 Γ h) fun k1 k2 k3 i j =>
      shearedTensor (vkE L E0) ![k1, k2, k3] (eddyLifetime hyp (.taunet net) h Γ ⟨k1, k2, k3⟩).toReal i j :=
  coherenceLimit_of (K := .nn net L E0 Γ h) ⟨hL, hE.le, hn, hh.ne'⟩ (nn_tensorOf net hn ha hL hE hΓ hh hyp)

/-! ### Bounds and periodicity on a given grid -/

theorem fieldCross_diag (ξ : Box n1 n2 n3 → Fin 3 → Ω → ℝ) {h1 h2 h3 : ℝ} (p1 : 0 < h1) (p2 : 0 < h2) (p3 : 0 < h3)
    (hξ : WhiteNoise μ (h1 * h2 * h3) ξ) (o2 : Odd n2) (o3 : Odd n3) {K : GenKernel} (hK : K.Valid) (i : Fin 3)
    (q : ZMod n1) (hq : 2 * q.val ≠ n1) : ∃ w : ZMod n2 → ZMod n3 → ℝ, (∀ k2 k3, 0 ≤ w k2 k3) ∧ ∀ y y' z z',
      fieldCross μ K h1 h2 h3 ξ y y' z z' i i q =
        ∑ k2, ∑ k3, (w k2 k3 : ℂ) * (ZMod.stdAddChar (k2 * (y - y')) * ZMod.stdAddChar (k3 * (z - z'))) := by
  refine ⟨fun k2 k3 => h1 / (2 * Real.pi) * (∑ l, ‖times1j (K.eval (freqOf (h1 * n1) (h2 * n2) (h3 * n3) (q, k2, k3))) i l‖ ^ 2) /
    (n2 * n3), fun k2 k3 => by positivity, fun y y' z z' => ?_⟩
  rw [C135_cross ξ p1 p2 p3 hξ o2 o3 hK y y' z z' i i q hq, Finset.sum_div, Finset.mul_sum]
  refine Finset.sum_congr rfl fun k2 _ => ?_
  rw [Finset.sum_div, Finset.mul_sum]
  refine Finset.sum_congr rfl fun k3 _ => ?_
  have e : ∀ M : Matrix (Fin 3) (Fin 3) ℂ, (M * M.conjTranspose) i i = ((∑ l, ‖M i l‖ ^ 2 : ℝ) : ℂ) := by
    intro M
    rw [Matrix.mul_apply]
    push_cast
    refine Finset.sum_congr rfl fun l _ => ?_
    rw [Matrix.conjTranspose_apply, ← Complex.mul_conj']
    rfl
  rw [e]
  push_cast
  ring

theorem char_norm {n : ℕ} [NeZero n] (j : ZMod n) : ‖(ZMod.stdAddChar j : ℂ)‖ = 1 := by
  rw [ZMod.stdAddChar_apply]; exact Circle.norm_coe _

/-- **C135** On every grid of odd transverse sizes the coherence lies between 0 and 1, and is 1 for a line with itself unless
the field has no energy at this wavenumber. -/
theorem C135_bounds (ξ : Box n1 n2 n3 → Fin 3 → Ω → ℝ) {h1 h2 h3 : ℝ} (p1 : 0 < h1) (p2 : 0 < h2) (p3 : 0 < h3)
    (hξ : WhiteNoise μ (h1 * h2 * h3) ξ) (o2 : Odd n2) (o3 : Odd n3) {K : GenKernel} (hK : K.Valid) (y y' : ZMod n2)
    (z z' : ZMod n3) (i : Fin 3) (q : ZMod n1) (hq : 2 * q.val ≠ n1) :
    (0 ≤ fieldCoherence μ K h1 h2 h3 ξ y y' z z' i q ∧ fieldCoherence μ K h1 h2 h3 ξ y y' z z' i q ≤ 1) ∧
    (fieldCross μ K h1 h2 h3 ξ y y z z i i q ≠ 0 → fieldCoherence μ K h1 h2 h3 ξ y y z z i q = 1) := by
  obtain ⟨w, w0, hw⟩ := fieldCross_diag ξ p1 p2 p3 hξ o2 o3 hK i q hq
  have hd : ∀ y z, fieldCross μ K h1 h2 h3 ξ y y z z i i q = ((∑ k2, ∑ k3, w k2 k3 : ℝ) : ℂ) := by
    intro y z
    rw [hw]
    push_cast
    refine Finset.sum_congr rfl fun k2 _ => Finset.sum_congr rfl fun k3 _ => ?_
    simp
  have hS : 0 ≤ ∑ k2, ∑ k3, w k2 k3 := Finset.sum_nonneg fun k2 _ => Finset.sum_nonneg fun k3 _ => w0 k2 k3
  have hc : ‖fieldCross μ K h1 h2 h3 ξ y y' z z' i i q‖ ≤ ∑ k2, ∑ k3, w k2 k3 := by
    rw [hw]
    refine (norm_sum_le _ _).trans (Finset.sum_le_sum fun k2 _ => (norm_sum_le _ _).trans (Finset.sum_le_sum fun k3 _ => ?_))
    rw [norm_mul, norm_mul, char_norm, char_norm, Complex.norm_real, Real.norm_eq_abs, abs_of_nonneg (w0 k2 k3), mul_one, mul_one]
  have hn : ∀ y z, ‖fieldCross μ K h1 h2 h3 ξ y y z z i i q‖ = ∑ k2, ∑ k3, w k2 k3 := by
    intro y z
    rw [hd, Complex.norm_real, Real.norm_eq_abs, abs_of_nonneg hS]
  unfold fieldCoherence
  refine ⟨⟨by positivity, ?_⟩, fun h => ?_⟩
  · rw [hn, hn]
    refine div_le_one_of_le₀ ?_ (by positivity)
    rw [← sq]
    gcongr
  · have : ‖fieldCross μ K h1 h2 h3 ξ y y z z i i q‖ ≠ 0 := norm_ne_zero_iff.2 h
    rw [← sq, div_self (by positivity)]

/-- **C135** The box is periodic: on every grid lines `m` cells apart are exactly as coherent as lines at the complementary
distance `n2 - m` (and `n3 - l`), so the coherence comes back to 1 across the box. -/
theorem C135_periodic (ξ : Box n1 n2 n3 → Fin 3 → Ω → ℝ) {h1 h2 h3 : ℝ} (p1 : 0 < h1) (p2 : 0 < h2) (p3 : 0 < h3)
    (hξ : WhiteNoise μ (h1 * h2 * h3) ξ) (o2 : Odd n2) (o3 : Odd n3) {K : GenKernel} (hK : K.Valid) {y y' v v' : ZMod n2}
    {z z' t t' : ZMod n3} (hy : (y.val : ℤ) - y'.val = n2 - ((v.val : ℤ) - v'.val))
    (hz : z = z' ∧ t = t' ∨ (z.val : ℤ) - z'.val = n3 - ((t.val : ℤ) - t'.val)) (i : Fin 3)
    (q : ZMod n1) (hq : 2 * q.val ≠ n1) :
    fieldCoherence μ K h1 h2 h3 ξ y y' z z' i q = fieldCoherence μ K h1 h2 h3 ξ v v' t t' i q := by
  obtain ⟨w, w0, hw⟩ := fieldCross_diag ξ p1 p2 p3 hξ o2 o3 hK i q hq
  have hd : ∀ y z, fieldCross μ K h1 h2 h3 ξ y y z z i i q = ((∑ k2, ∑ k3, w k2 k3 : ℝ) : ℂ) := by
    intro y z
    rw [hw]
    push_cast
    refine Finset.sum_congr rfl fun k2 _ => Finset.sum_congr rfl fun k3 _ => ?_
    simp
  have cast : ∀ {n : ℕ} [NeZero n] {a b c d : ZMod n}, (a.val : ℤ) - b.val = n - ((c.val : ℤ) - d.val) → a - b = -(c - d) := by
    intro n _ a b c d h
    have := congrArg (fun x : ℤ => (x : ZMod n)) h
    simpa using this
  have e2 : y - y' = -(v - v') := cast hy
  have e3 : z - z' = -(t - t') := by
    rcases hz with ⟨rfl, rfl⟩ | h
    · simp
    · exact cast h
  have hcc : fieldCross μ K h1 h2 h3 ξ y y' z z' i i q = (starRingEnd ℂ) (fieldCross μ K h1 h2 h3 ξ v v' t t' i i q) := by
    rw [hw, hw, map_sum]
    refine Finset.sum_congr rfl fun k2 _ => ?_
    rw [map_sum]
    refine Finset.sum_congr rfl fun k3 _ => ?_
    have h4 := map_mul (starRingEnd ℂ) (w k2 k3 : ℂ) (ZMod.stdAddChar (k2 * (v - v')) * ZMod.stdAddChar (k3 * (t - t')))
    have h5 := map_mul (starRingEnd ℂ) (ZMod.stdAddChar (k2 * (v - v')) : ℂ) (ZMod.stdAddChar (k3 * (t - t')))
    rw [h4, h5, Complex.conj_ofReal, stdAddChar_conj, stdAddChar_conj, e2, e3, mul_neg, mul_neg]
  unfold fieldCoherence
  rw [hcc, Complex.norm_conj, hd, hd, hd, hd]

/-! ### The fitted coherence -/

theorem bandCoherence_square {h : ℝ} (f : ℝ → ℝ → ℝ) (r : ℝ) :
    bandCoherence h h f r 0 = Spec.coherence (Real.pi / h) f r := by
  unfold bandCoherence resolvedCross Spec.coherence
  rw [← Complex.normSq_eq_norm_sq, Complex.normSq_mk]
  simp only [mul_zero, add_zero, ← sq]
  rfl

theorem square_const_mul (a u : ℝ) (f : ℝ → ℝ → ℝ) : Spec.square a (fun x y => u * f x y) = u * Spec.square a f := by
  unfold Spec.square
  simp only [intervalIntegral.integral_const_mul]

theorem square_nonneg' {a : ℝ} (ha : 0 ≤ a) {f : ℝ → ℝ → ℝ} (h : ∀ x y, 0 ≤ f x y) : 0 ≤ Spec.square a f :=
  intervalIntegral.integral_nonneg (by linarith) fun x _ => intervalIntegral.integral_nonneg (by linarith) fun y _ => h x y

theorem square_cross_le {f : ℝ → ℝ → ℝ} (hf : Continuous fun q : ℝ × ℝ => f q.1 q.2) (h0 : ∀ x y, 0 ≤ f x y) {a : ℝ}
    (ha : 0 ≤ a) (r : ℝ) :
    ‖(⟨Spec.square a fun x y => f x y * Real.cos (x * r), Spec.square a fun x y => f x y * Real.sin (x * r)⟩ : ℂ)‖ ≤ Spec.square a f := by
  obtain ⟨A, hA⟩ : ∃ A, A = Spec.square a fun x y => f x y * Real.cos (x * r) := ⟨_, rfl⟩
  obtain ⟨B, hB⟩ : ∃ B, B = Spec.square a fun x y => f x y * Real.sin (x * r) := ⟨_, rfl⟩
  obtain ⟨Q, hQ⟩ : ∃ Q, Q = ‖(⟨A, B⟩ : ℂ)‖ := ⟨_, rfl⟩
  rw [← hA, ← hB, ← hQ]
  have hQ2 : Q ^ 2 = A ^ 2 + B ^ 2 := by
    rw [hQ, ← Complex.normSq_eq_norm_sq, Complex.normSq_mk]; ring
  have Q0 : 0 ≤ Q := by rw [hQ]; positivity
  have I0 : 0 ≤ Spec.square a f := square_nonneg' ha h0
  have c1 : Continuous fun q : ℝ × ℝ => A * (f q.1 q.2 * Real.cos (q.1 * r)) := by fun_prop
  have c2 : Continuous fun q : ℝ × ℝ => -B * (f q.1 q.2 * Real.sin (q.1 * r)) := by fun_prop
  have c3 : Continuous fun q : ℝ × ℝ => Q * f q.1 q.2 := by fun_prop
  have e1 : Q * Spec.square a f - (A * A - -B * B) = Spec.square a fun x y =>
      Q * f x y - (A * (f x y * Real.cos (x * r)) - -B * (f x y * Real.sin (x * r))) := by
    rw [← square_sub (f := fun x y => Q * f x y)
      (g := fun x y => A * (f x y * Real.cos (x * r)) - -B * (f x y * Real.sin (x * r))) c3 (c1.sub c2),
      ← square_sub (f := fun x y => A * (f x y * Real.cos (x * r))) (g := fun x y => -B * (f x y * Real.sin (x * r))) c1 c2,
      square_const_mul, square_const_mul, square_const_mul, ← hA, ← hB]
  have hge : 0 ≤ Q * Spec.square a f - (A * A - -B * B) := by
    rw [e1]
    refine square_nonneg' ha fun x y => ?_
    have hcs : A * Real.cos (x * r) + B * Real.sin (x * r) ≤ Q := by
      refine le_of_sq_le_sq ?_ Q0
      have := Real.cos_sq_add_sin_sq (x * r)
      rw [hQ2]
      nlinarith [sq_nonneg (A * Real.sin (x * r) - B * Real.cos (x * r))]
    nlinarith [h0 x y]
  by_contra hlt
  push Not at hlt
  nlinarith

theorem ratio_sq_near {n n' I I' δ : ℝ} (hn : 0 ≤ n) (hn' : 0 ≤ n') (hI : 0 < I) (hδ : 0 ≤ δ) (h1 : n ≤ I) (h2 : n' ≤ I')
    (hI' : I' = I + δ) (h : |n' - n| ≤ δ) : |n' ^ 2 / I' ^ 2 - n ^ 2 / I ^ 2| ≤ 4 * δ / I := by
  have I0 : 0 < I' := by linarith
  have e : n' ^ 2 / I' ^ 2 - n ^ 2 / I ^ 2 = (n' / I' + n / I) * (n' / I' - n / I) := by
    rw [← div_pow, ← div_pow]; ring
  have a1 : n / I ≤ 1 := div_le_one_of_le₀ h1 hI.le
  have a2 : n' / I' ≤ 1 := div_le_one_of_le₀ h2 I0.le
  have b1 : 0 ≤ n / I := by positivity
  have b2 : 0 ≤ n' / I' := by positivity
  have d : |n' / I' - n / I| ≤ 2 * δ / I := by
    have e2 : n' / I' - n / I = ((n' - n) - (n / I) * δ) / I' := by
      rw [hI'] at I0 ⊢
      field_simp
      ring
    rw [e2, abs_div, abs_of_pos I0, div_le_div_iff₀ I0 hI]
    have : |n' - n - n / I * δ| ≤ 2 * δ := by
      rw [abs_le] at h ⊢
      constructor <;> nlinarith
    nlinarith [abs_nonneg (n' - n - n / I * δ)]
  rw [e, abs_mul, abs_of_nonneg (by linarith)]
  calc (n' / I' + n / I) * |n' / I' - n / I| ≤ 2 * (2 * δ / I) := by
        refine mul_le_mul (by linarith) d (abs_nonneg _) (by norm_num)
    _ = 4 * δ / I := by ring

/-- A floor under the density changes the coherence by at most four times the floor times the area over the integral. -/
theorem coherence_floor {f : ℝ → ℝ → ℝ} (hf : Continuous fun q : ℝ × ℝ => f q.1 q.2) (h0 : ∀ x y, 0 ≤ f x y) {a c : ℝ}
    (ha : 0 ≤ a) (hc : 0 ≤ c) (hI : 0 < Spec.square a f) (r : ℝ) :
    |Spec.coherence a (fun x y => max (f x y) c) r - Spec.coherence a f r| ≤ 4 * (c * (2 * a) ^ 2) / Spec.square a f := by
  have cM : Continuous fun q : ℝ × ℝ => max (f q.1 q.2) c := hf.max continuous_const
  have cD : Continuous fun q : ℝ × ℝ => max (f q.1 q.2) c - f q.1 q.2 := cM.sub hf
  have hD0 : ∀ x y, 0 ≤ max (f x y) c - f x y := fun x y => sub_nonneg.2 (le_max_left _ _)
  obtain ⟨g, hg⟩ : ∃ g : ℝ → ℝ → ℝ, g = fun x y => max (f x y) c := ⟨_, rfl⟩
  obtain ⟨δ, hδ⟩ : ∃ δ, δ = Spec.square a fun x y => max (f x y) c - f x y := ⟨_, rfl⟩
  have hb : 0 ≤ δ ∧ δ ≤ c * (2 * a) ^ 2 := by
    rw [hδ]
    refine square_bounds (f := fun x y => max (f x y) c - f x y) cD ha hD0 fun x y => ?_
    have := h0 x y
    rcases max_cases (f x y) c with h | h <;> linarith [h.1]
  have hI' : Spec.square a (fun x y => max (f x y) c) = Spec.square a f + δ := by
    rw [hδ, ← square_sub (f := fun x y => max (f x y) c) (g := f) cM hf]; ring
  have cc : ∀ {u : ℝ → ℝ → ℝ}, (Continuous fun q : ℝ × ℝ => u q.1 q.2) → Continuous fun q : ℝ × ℝ => u q.1 q.2 * Real.cos (q.1 * r) :=
    fun hu => hu.mul (by fun_prop)
  have cs : ∀ {u : ℝ → ℝ → ℝ}, (Continuous fun q : ℝ × ℝ => u q.1 q.2) → Continuous fun q : ℝ × ℝ => u q.1 q.2 * Real.sin (q.1 * r) :=
    fun hu => hu.mul (by fun_prop)
  have eZ : (⟨Spec.square a fun x y => max (f x y) c * Real.cos (x * r), Spec.square a fun x y => max (f x y) c * Real.sin (x * r)⟩ : ℂ) -
      ⟨Spec.square a fun x y => f x y * Real.cos (x * r), Spec.square a fun x y => f x y * Real.sin (x * r)⟩ =
      ⟨Spec.square a fun x y => (max (f x y) c - f x y) * Real.cos (x * r),
        Spec.square a fun x y => (max (f x y) c - f x y) * Real.sin (x * r)⟩ := by
    apply Complex.ext
    · simp only [Complex.sub_re]
      rw [square_sub (f := fun x y => max (f x y) c * Real.cos (x * r)) (g := fun x y => f x y * Real.cos (x * r))
        (cc (u := fun x y => max (f x y) c) cM) (cc hf)]
      simp only [sub_mul]
    · simp only [Complex.sub_im]
      rw [square_sub (f := fun x y => max (f x y) c * Real.sin (x * r)) (g := fun x y => f x y * Real.sin (x * r))
        (cs (u := fun x y => max (f x y) c) cM) (cs hf)]
      simp only [sub_mul]
  have n1 := square_cross_le hf h0 ha r
  have n2 := square_cross_le (f := fun x y => max (f x y) c) cM (fun x y => (h0 x y).trans (le_max_left _ _)) ha r
  have n3 := square_cross_le (f := fun x y => max (f x y) c - f x y) cD hD0 ha r
  rw [← eZ, ← hδ] at n3
  have e : ∀ u : ℝ → ℝ → ℝ, Spec.coherence a u r = ‖(⟨Spec.square a fun x y => u x y * Real.cos (x * r),
      Spec.square a fun x y => u x y * Real.sin (x * r)⟩ : ℂ)‖ ^ 2 / Spec.square a u ^ 2 := by
    intro u
    unfold Spec.coherence
    rw [← Complex.normSq_eq_norm_sq, Complex.normSq_mk]
    ring
  rw [e, e]
  refine (ratio_sq_near (norm_nonneg _) (norm_nonneg _) hI hb.1 n1 n2 hI' ((abs_norm_sub_norm_le _ _).trans n3)).trans ?_
  gcongr
  exact hb.2

/-- **C135** What is fitted is what is generated, for coherences: with transverse spacings `h = pi L0 / 10^p2`, the coherence that
the fitter with the Mann lifetime predicts at a separation of `m` cells and the coherence of the generated field at the same
scales agree for every component to any tolerance, plus the effect of the floor `1e-32`, on fine enough quadrature grids and wide
enough boxes. -/
theorem C135_generator_matches_fitter (s : OPS) (hy : IsMannHyp s.hyp) (hk : s.kind = .mann) (hs : s.sp = .vkLike) (p2 : ℝ)
    {L0 h1 k1 : ℝ} (hL : 0 < L0) (hh : 0 < h1) (hk1 : 0 < k1) (m : ℤ) {e : ℝ} (he : 0 < e) :
    let a := (10:ℝ) ^ p2 / L0
    let h := Real.pi / a
    let K := GenKernel.mann s.hyp (Real.exp s.logL) (Real.exp s.logM) (Real.exp s.logT)
    let δ := fun i => e + 4 * (1e-32 * (2 * a) ^ 2) / Spec.square a fun k2 k3 => Spec.fitTensor s.params k1 k2 k3 i i
    ∃ P, ∀ p1 < P, ∃ N, ∀ n ≥ N, ∃ u v w : ℝ,
      (OPS.SpectralCoherence [k1] [h * m] { s with cohGrid := some ((opsGrid p1 p2 n).map fun x => x / L0) }).1 =
        .ok [[[fin u]], [[fin v]], [[fin w]]] ∧
      ∃ N' : ℕ, ∀ (n1 n2 n3 : ℕ) [NeZero n1] [NeZero n2] [NeZero n3], Odd n2 → Odd n3 → N' ≤ n2 → N' ≤ n3 →
      ∀ (Ω : Type) [MeasurableSpace Ω] (μ : Measure Ω) (ξ : Box n1 n2 n3 → Fin 3 → Ω → ℝ), WhiteNoise μ (h1 * h * h) ξ →
      ∀ (q : ZMod n1), 2 * q.val ≠ n1 → 2 * Real.pi / (h1 * n1) * fftIdx n1 q = k1 →
      ∀ (y y' : ZMod n2) (z : ZMod n3), (y.val : ℤ) - y'.val = m →
        let C := fun i => fieldCoherence μ K h1 h h ξ y y' z z i q
        |u - C 0| ≤ δ 0 ∧ |v - C 1| ≤ δ 1 ∧ |w - C 2| ≤ δ 2 := by
  intro a h K δ
  have hpi := Real.pi_pos
  have ha : 0 < a := by positivity
  have hp : 0 < h := div_pos hpi ha
  have hinv : Real.pi / h = a := by simp only [h]; field_simp
  have ht : s.params.ty = .mann := by simp [OPS.params, OPS.ty, OPS.initApprox, hk]
  have hc : s.params.LifetimeContinuous := lifetimeContinuous_of _ (by rw [ht]; exact hy)
  obtain ⟨P, hP⟩ := C96_refinement s hc p2 hL hk1 (h * m) (e := e / 2) (by positivity)
  refine ⟨P, fun p1 h1' => ?_⟩
  obtain ⟨N, hN⟩ := hP p1 h1'
  refine ⟨N, fun n hn => ?_⟩
  obtain ⟨u, v, w, hf, b1, b2, b3⟩ := hN n hn
  refine ⟨u, v, w, hf, ?_⟩
  obtain ⟨hpos, hlim⟩ := C135_mann s.params hy ht hs h1 h h k1 hh hp hp hk1.ne'
  obtain ⟨N', hN'⟩ := hlim (e / 2) (by positivity) m 0
  refine ⟨N', fun n1 n2 n3 _ _ _ o2 o3 g2 g3 Ω _ μ ξ hξ q hq hκ y y' z hy' => ?_⟩
  intro C
  have hq' := hN' n1 n2 n3 o2 o3 g2 g3 Ω μ ξ hξ q hq hκ y y' z z hy' (by simp)
  simp only [Int.cast_zero, mul_zero, bandCoherence_square, hinv] at hq'
  have hsq : ∀ f, resolved h h f = Spec.square a f := by
    intro f; unfold resolved Spec.square; rw [hinv]
  simp only [hsq] at hpos
  have comb : ∀ (c : Comp3) (x : ℝ), |x - Spec.coherence a (Spec.cohDensity s.params c k1) (h * m)| ≤ e / 2 →
      |x - C c.idx| ≤ δ c.idx := by
    intro c x hx
    have f1 := coherence_floor (f := fun k2 k3 => Spec.fitTensor s.params k1 k2 k3 c.idx c.idx)
      (fitTensor_cont s.params hc hk1.ne' c.idx c.idx) (fun k2 k3 => fitTensor_diag_nonneg s.params hk1.ne' k2 k3 c.idx) ha.le
      (c := 1e-32) (by norm_num) (hpos c.idx) (h * m)
    have f2 := hq' c.idx
    have e1 : Spec.coherence a (Spec.cohDensity s.params c k1) (h * m) =
        Spec.coherence a (fun x y => max (Spec.fitTensor s.params k1 x y c.idx c.idx) 1e-32) (h * m) := rfl
    rw [e1] at hx
    have e2 : C c.idx = fieldCoherence μ (GenKernel.mann s.params.hyp s.params.L s.params.M s.params.T) h1 h h ξ y y' z z c.idx q :=
      rfl
    rw [e2]
    simp only [δ]
    rw [abs_le] at hx f1 f2 ⊢
    constructor <;> linarith [hx.1, hx.2, f1.1, f1.2, f2.1, f2.2]
  exact ⟨comb .u u b1, comb .v v b2, comb .w w b3⟩

/-- The fitter's scales, a wavenumber and a separation of three cells meet the hypotheses: a fit in its initial state. -/
example (hyp : ℝ → ℝ) (hy : IsMannHyp hyp) : FieldCoherenceLimit (.mann hyp 1 1 1)
    (Spec.fitTensor ⟨hyp, .mann, .vkLike, 0, 0, 0⟩) := by
  have := C135_mann ⟨hyp, .mann, .vkLike, 0, 0, 0⟩ hy rfl rfl
  simpa [OPSParams.L, OPSParams.M, OPSParams.T] using this

/-- Lines 2 and 0 in a box of 5 are as coherent as lines 3 and 0. -/
example : (((2 : ZMod 5).val : ℤ) - (0 : ZMod 5).val) = (5 : ℕ) - (((3 : ZMod 5).val : ℤ) - (0 : ZMod 5).val) := by decide

end
end Verif
