import Verif.Lemmas.WhiteNoise
import Verif.Props.Sampling

/-!
# C81 on arbitrary grids (even sizes included)

On even grids the spectrum array is not Hermitian at the Nyquist indices.  The complex-to-real transform nevertheless
produces the field of a Hermitian spectrum, the completion of the stored half.
-/

namespace Verif
open Fl MeasureTheory
open scoped ComplexOrder

noncomputable section

variable {n1 n2 n3 : ℕ} [NeZero n1] [NeZero n2] [NeZero n3]

/-- The Hermitian completion of a spectrum array: entries with `0 < k3 < n3/2` are kept, those with `k3 > n3/2` are the
conjugates of their mirror images, those with `k3 = 0` or `k3 = n3/2` are averaged with the conjugate of their mirror image. -/
def completion (S : Box n1 n2 n3 → Matrix (Fin 3) (Fin 3) ℂ) (k : Box n1 n2 n3) : Matrix (Fin 3) (Fin 3) ℂ :=
  fun i l =>
    if k.2.2.val = 0 ∨ 2 * k.2.2.val = n3 then (S k i l + (starRingEnd ℂ) (S (-k) i l)) / 2
    else if 2 * k.2.2.val < n3 then S k i l else (starRingEnd ℂ) (S (-k) i l)

omit [NeZero n1] [NeZero n2] [NeZero n3] in
theorem completion_apply (S : Box n1 n2 n3 → Matrix (Fin 3) (Fin 3) ℂ) (k : Box n1 n2 n3) (i l : Fin 3) :
    completion S k i l = herm (fun k => S k i l) k := rfl

theorem completion_hermitian (S : Box n1 n2 n3 → Matrix (Fin 3) (Fin 3) ℂ) (k : Box n1 n2 n3) :
    completion S (-k) = (completion S k).map (starRingEnd ℂ) := by
  ext i l
  rw [Matrix.map_apply, completion_apply, completion_apply, herm_neg]

omit [NeZero n1] [NeZero n2] [NeZero n3] in
theorem completion_of_hermitian {S : Box n1 n2 n3 → Matrix (Fin 3) (Fin 3) ℂ} {k : Box n1 n2 n3}
    (h : S (-k) = (S k).map (starRingEnd ℂ)) : completion S k = S k := by
  ext i l
  exact herm_of_hermitian (Y := fun k => S k i l) (by rw [h]; rfl)

theorem herm_vfY (S : Box n1 n2 n3 → Matrix (Fin 3) (Fin 3) ℂ) (noise : Box n1 n2 n3 → Fin 3 → ℝ) (i : Fin 3)
    (k : Box n1 n2 n3) : herm (vfY S noise i) k = vfY (completion S) noise i k := by
  have hc : ∀ l, (starRingEnd ℂ) (noiseHat noise l (-k)) = noiseHat noise l k := by
    intro l
    unfold noiseHat
    rw [fftn_real, Complex.conj_conj]
  unfold herm vfY spectrumHalf completion
  split_ifs with h1 h2
  · rw [map_sum, ← Finset.sum_add_distrib, Finset.sum_div]
    refine Finset.sum_congr rfl fun l _ => ?_
    rw [map_mul, map_mul, Complex.conj_ofReal, hc]
    ring
  · rfl
  · rw [map_sum]
    refine Finset.sum_congr rfl fun l _ => ?_
    rw [map_mul, map_mul, Complex.conj_ofReal, hc]

/-- The sampler cannot tell a spectrum array from its Hermitian completion. -/
theorem vfSample_completion (S : Box n1 n2 n3 → Matrix (Fin 3) (Fin 3) ℂ) (norm : ℝ)
    (noise : Box n1 n2 n3 → Fin 3 → ℝ) : vfSample (completion S) norm noise = vfSample S norm noise := by
  funext x i
  rw [vfSample_eq, vfSample_eq]
  congr 1
  have h1 : ((irfftn (vfY (completion S) noise i) x : ℝ) : ℂ) = ((irfftn (vfY S noise i) x : ℝ) : ℂ) := by
    rw [irfftn_eq, irfftn_eq]
    congr 1
    funext k
    rw [herm_vfY S]
    exact herm_of_hermitian (vfY_neg (completion_hermitian S k) noise i)
  exact_mod_cast h1

variable {Ω : Type} [MeasurableSpace Ω] {μ : Measure Ω}

/-- **C81** on every grid and for every spectrum array: white noise gives a field whose two-point covariance is the Fourier
sum of the spectral tensor of the Hermitian completion of the array. -/
theorem C81_any_grid (ξ : Box n1 n2 n3 → Fin 3 → Ω → ℝ)
    (hL2 : ∀ x l, MemLp (ξ x l) 2 μ) (sigma2 : ℝ)
    (hcov : ∀ x l y m, ∫ ω, ξ x l ω * ξ y m ω ∂μ = if x = y ∧ l = m then sigma2 else 0)
    (S : Box n1 n2 n3 → Matrix (Fin 3) (Fin 3) ℂ) (norm : ℝ) (x y : Box n1 n2 n3) (i j : Fin 3) :
    ((∫ ω, vfSample S norm (fun z l => ξ z l ω) x i * vfSample S norm (fun z l => ξ z l ω) y j ∂μ : ℝ) : ℂ) =
      sigma2 / (norm : ℂ) ^ 2 *
        ∑ k, (completion S k * (completion S k).conjTranspose) i j * wave k (x - y) := by
  have := C81_covariance ξ hL2 sigma2 hcov (completion_hermitian S) norm x y i j
  simp only [vfSample_completion] at this
  exact this

/-- **C81** Hence the sampled field is stationary on every grid: shifting both points changes no covariance. -/
theorem C81_stationary (ξ : Box n1 n2 n3 → Fin 3 → Ω → ℝ)
    (hL2 : ∀ x l, MemLp (ξ x l) 2 μ) (sigma2 : ℝ)
    (hcov : ∀ x l y m, ∫ ω, ξ x l ω * ξ y m ω ∂μ = if x = y ∧ l = m then sigma2 else 0)
    (S : Box n1 n2 n3 → Matrix (Fin 3) (Fin 3) ℂ) (norm : ℝ) (x y s : Box n1 n2 n3) (i j : Fin 3) :
    ∫ ω, vfSample S norm (fun z l => ξ z l ω) (x + s) i * vfSample S norm (fun z l => ξ z l ω) (y + s) j ∂μ =
      ∫ ω, vfSample S norm (fun z l => ξ z l ω) x i * vfSample S norm (fun z l => ξ z l ω) y j ∂μ := by
  have h1 := C81_any_grid ξ hL2 sigma2 hcov S norm (x + s) (y + s) i j
  rw [add_sub_add_right_eq_sub, ← C81_any_grid ξ hL2 sigma2 hcov S norm x y i j] at h1
  exact_mod_cast h1

/-- **C81** for the generator on every grid, even sizes included: the covariance is the average over the modes of a
spectral tensor times the wave, and at every mode without a Nyquist index that tensor is the kernel's. -/
theorem C81_generator_any_grid (ξ : Box n1 n2 n3 → Fin 3 → Ω → ℝ)
    (hL2 : ∀ x l, MemLp (ξ x l) 2 μ) {h1 h2 h3 : ℝ} (p1 : 0 < h1) (p2 : 0 < h2) (p3 : 0 < h3)
    (hcov : ∀ x l y m, ∫ ω, ξ x l ω * ξ y m ω ∂μ = if x = y ∧ l = m then h1 * h2 * h3 else 0)
    {K : GenKernel} (hK : K.Valid) : ∃ R : Box n1 n2 n3 → Matrix (Fin 3) (Fin 3) ℂ,
    (∀ k, (R k).PosSemidef) ∧
    (∀ k, NonNyquist k → R k = times1j (K.eval (freqOf (h1 * n1) (h2 * n2) (h3 * n3) k)) *
      (times1j (K.eval (freqOf (h1 * n1) (h2 * n2) (h3 * n3) k))).conjTranspose) ∧
    ∀ (x y : Box n1 n2 n3) (i j : Fin 3),
    ((∫ ω, vfSample (spectrumOf K.eval (h1 * n1) (h2 * n2) (h3 * n3)) (transformNorm (h1 * n1) (h2 * n2) (h3 * n3))
          (fun z l => ξ z l ω) x i *
        vfSample (spectrumOf K.eval (h1 * n1) (h2 * n2) (h3 * n3)) (transformNorm (h1 * n1) (h2 * n2) (h3 * n3))
          (fun z l => ξ z l ω) y j ∂μ : ℝ) : ℂ) =
      1 / (voxels n1 n2 n3 : ℂ) * ∑ k, R k i j * wave k (x - y) := by
  refine ⟨fun k => completion (spectrumOf K.eval (h1 * n1) (h2 * n2) (h3 * n3)) k *
    (completion (spectrumOf K.eval (h1 * n1) (h2 * n2) (h3 * n3)) k).conjTranspose,
    fun k => Matrix.posSemidef_self_mul_conjTranspose _, fun k hk => ?_, fun x y i j => ?_⟩
  · simp only [completion_of_hermitian (spectrum_hermitian hK hk)]
    rfl
  · rw [C81_any_grid ξ hL2 _ hcov]
    congr 1
    have q1 : (0 : ℝ) < n1 := by exact_mod_cast NeZero.pos n1
    have q2 : (0 : ℝ) < n2 := by exact_mod_cast NeZero.pos n2
    have q3 : (0 : ℝ) < n3 := by exact_mod_cast NeZero.pos n3
    have : (transformNorm (h1 * n1) (h2 * n2) (h3 * n3)) ^ 2 = h1 * h2 * h3 * voxels n1 n2 n3 := by
      rw [transformNorm, Real.sq_sqrt (by positivity), voxels]; push_cast; ring
    rw [← Complex.ofReal_pow, this]
    have hne : (h1 * h2 * h3 : ℝ) ≠ 0 := by positivity
    have hne' : ((h1 * h2 * h3 : ℝ) : ℂ) ≠ 0 := by exact_mod_cast hne
    have hv := voxels_ne (n1 := n1) (n2 := n2) (n3 := n3)
    push_cast at hne' ⊢
    field_simp

omit [NeZero n2] [NeZero n3] in
theorem stdAddChar_phase (k x y : ZMod n1) {h : ℝ} (p : 0 < h) :
    (ZMod.stdAddChar (k * (x - y)) : ℂ) =
      Complex.exp (Complex.I * ((2 * Real.pi / (h * n1) * fftIdx n1 k * (h * x.val - h * y.val) : ℝ) : ℂ)) := by
  have hk : ((fftIdx n1 k : ℤ) : ZMod n1) = k := by
    unfold fftIdx
    split_ifs <;> simp
  have hx : k * (x - y) = ((fftIdx n1 k * ((x.val : ℤ) - (y.val : ℤ)) : ℤ) : ZMod n1) := by
    push_cast
    rw [hk]
    simp
  rw [hx, ZMod.stdAddChar_coe]
  congr 1
  have hn : (n1 : ℂ) ≠ 0 := by exact_mod_cast NeZero.ne n1
  have hh : (h : ℂ) ≠ 0 := by exact_mod_cast p.ne'
  push_cast
  field_simp

omit [NeZero n2] [NeZero n3] in
theorem fftIdx_range (k : ZMod n1) {h : ℝ} (p : 0 < h) :
    -(Real.pi / h) ≤ 2 * Real.pi / (h * n1) * fftIdx n1 k ∧ 2 * Real.pi / (h * n1) * fftIdx n1 k < Real.pi / h := by
  have hn : (0 : ℝ) < n1 := by exact_mod_cast NeZero.pos n1
  have hv := ZMod.val_lt k
  have h1 : -(n1 : ℤ) ≤ 2 * fftIdx n1 k ∧ 2 * fftIdx n1 k < n1 := by
    unfold fftIdx
    split_ifs <;> omega
  have h2 : -(n1 : ℝ) ≤ 2 * fftIdx n1 k := by exact_mod_cast h1.1
  have h3 : 2 * (fftIdx n1 k : ℝ) < n1 := by exact_mod_cast h1.2
  have e : 2 * Real.pi / (h * n1) * fftIdx n1 k = Real.pi / h * (2 * fftIdx n1 k / n1) := by
    field_simp
  have hp : 0 < Real.pi / h := div_pos Real.pi_pos p
  rw [e]
  constructor
  · have : -1 ≤ 2 * (fftIdx n1 k : ℝ) / n1 := by rw [le_div_iff₀ hn]; linarith
    nlinarith
  · have : 2 * (fftIdx n1 k : ℝ) / n1 < 1 := by rw [div_lt_iff₀ hn]; linarith
    nlinarith

/-- **C81** The waves of the covariance formula are the plane waves of the wavevectors at which the kernel is evaluated: with
grid points at `(h1 x1, h2 x2, h3 x3)`, the factor of mode `k` is `exp(i κ·(X - Y))`, where `κ` is the argument of the kernel
and lies in the resolved range `[-pi/h, pi/h)` in every direction. -/
theorem C81_wave {h1 h2 h3 : ℝ} (p1 : 0 < h1) (p2 : 0 < h2) (p3 : 0 < h3) (k x y : Box n1 n2 n3) :
    let κ := freqOf (h1 * n1) (h2 * n2) (h3 * n3) k
    wave k (x - y) = Complex.exp (Complex.I * ((κ.k1 * (h1 * x.1.val - h1 * y.1.val) +
      κ.k2 * (h2 * x.2.1.val - h2 * y.2.1.val) + κ.k3 * (h3 * x.2.2.val - h3 * y.2.2.val) : ℝ) : ℂ)) ∧
    (-(Real.pi / h1) ≤ κ.k1 ∧ κ.k1 < Real.pi / h1) ∧ (-(Real.pi / h2) ≤ κ.k2 ∧ κ.k2 < Real.pi / h2) ∧
    (-(Real.pi / h3) ≤ κ.k3 ∧ κ.k3 < Real.pi / h3) := by
  intro κ
  refine ⟨?_, fftIdx_range k.1 p1, fftIdx_range k.2.1 p2, fftIdx_range k.2.2 p3⟩
  unfold wave
  rw [Prod.fst_sub, Prod.snd_sub, Prod.fst_sub, Prod.snd_sub, stdAddChar_phase k.1 x.1 y.1 p1,
    stdAddChar_phase k.2.1 x.2.1 y.2.1 p2, stdAddChar_phase k.2.2 x.2.2 y.2.2 p3, ← Complex.exp_add, ← Complex.exp_add]
  congr 1
  rw [Complex.ofReal_add, Complex.ofReal_add, mul_add, mul_add]
  rfl

/-- What `sample_noise` draws (independent standard normal values times the square root of the cell volume) meets the
hypotheses on the noise. -/
example {h1 h2 h3 : ℝ} (p1 : 0 < h1) (p2 : 0 < h2) (p3 : 0 < h3) :
    ∃ ξ : Box n1 n2 n3 → Fin 3 → (Box n1 n2 n3 × Fin 3 → ℝ) → ℝ,
      (∀ x l, MemLp (ξ x l) 2 (stdNormal (Box n1 n2 n3 × Fin 3))) ∧
      ∀ x l y m, ∫ ω, ξ x l ω * ξ y m ω ∂(stdNormal (Box n1 n2 n3 × Fin 3)) = if x = y ∧ l = m then h1 * h2 * h3 else 0 := by
  refine ⟨fun x l ω => Real.sqrt (h1 * h2 * h3) * ω (x, l), fun x l => stdNormal_memLp _ _, fun x l y m => ?_⟩
  rw [stdNormal_cov, Real.sq_sqrt (by positivity)]
  simp only [Prod.mk.injEq]

/-- On a grid of two points per axis every array satisfies the hypotheses; there the completion differs from the array. -/
example : ∃ S : Box 2 2 2 → Matrix (Fin 3) (Fin 3) ℂ, completion S 0 ≠ S 0 := by
  refine ⟨fun _ _ _ => Complex.I, fun h => ?_⟩
  have := congrFun (congrFun h 0) 0
  simp [completion] at this
  exact Complex.I_ne_zero this.symm

end
end Verif
