import Verif.Lemmas.RiemannFft
import Verif.Props.Covariance
import Verif.Props.Convergence
import Verif.Props.Eddy

/-!
# One-point spectra of the sampled field: C95
-/

namespace Verif
open Fl MeasureTheory Verif.Spec

noncomputable section

variable {Ω : Type} [MeasurableSpace Ω] {μ : Measure Ω}

/-- Cross spectrum of two random signals sampled at `n` points with spacing `h`, at transform index `q`: the expected product
of their Fourier coefficients `sum_x u(x) exp(-2 pi i q x / n)`, scaled such that the sum over all `q` times the wavenumber
spacing `2 pi / (n h)` is the mean covariance. -/
def Spec.lineSpectrum {n : ℕ} [NeZero n] (μ : Measure Ω) (h : ℝ) (u v : ZMod n → Ω → ℝ) (q : ZMod n) : ℂ :=
  ((h / (2 * Real.pi * n) : ℝ) : ℂ) * ∫ ω, (∑ x, (u x ω : ℂ) * ZMod.stdAddChar (-(q * x))) *
    (starRingEnd ℂ) (∑ y, (v y ω : ℂ) * ZMod.stdAddChar (-(q * y))) ∂μ

theorem lineSpectrum_expand {n : ℕ} [NeZero n] {u v : ZMod n → Ω → ℝ}
    (hint : ∀ x y, Integrable (fun ω => u x ω * v y ω) μ) (h : ℝ) (q : ZMod n) :
    lineSpectrum μ h u v q = ((h / (2 * Real.pi * n) : ℝ) : ℂ) *
      ∑ x, ∑ y, ((∫ ω, u x ω * v y ω ∂μ : ℝ) : ℂ) * ZMod.stdAddChar (-(q * (x - y))) := by
  unfold lineSpectrum
  congr 1
  have e : ∀ ω, (∑ x, (u x ω : ℂ) * ZMod.stdAddChar (-(q * x))) *
      (starRingEnd ℂ) (∑ y, (v y ω : ℂ) * ZMod.stdAddChar (-(q * y))) =
      ∑ x, ∑ y, ((u x ω * v y ω : ℝ) : ℂ) * ZMod.stdAddChar (-(q * (x - y))) := by
    intro ω
    rw [map_sum, Finset.sum_mul]
    refine Finset.sum_congr rfl fun x _ => ?_
    rw [Finset.mul_sum]
    refine Finset.sum_congr rfl fun y _ => ?_
    rw [map_mul, Complex.conj_ofReal, stdAddChar_conj, show -(q * (x - y)) = -(q * x) + -(-(q * y)) by ring,
      AddChar.map_add_eq_mul]
    push_cast
    ring
  simp only [e]
  have hI : ∀ x y, Integrable (fun ω => ((u x ω * v y ω : ℝ) : ℂ) * (ZMod.stdAddChar (-(q * (x - y))) : ℂ)) μ :=
    fun x y => (hint x y).ofReal.mul_const _
  rw [integral_finset_sum _ fun x _ => integrable_finset_sum _ fun y _ => hI x y]
  refine Finset.sum_congr rfl fun x _ => ?_
  rw [integral_finset_sum _ fun y _ => hI x y]
  refine Finset.sum_congr rfl fun y _ => ?_
  rw [integral_mul_const, integral_complex_ofReal]

/-- **C95** (what the spectrum means) Summed over all wavenumbers with the wavenumber spacing, the spectrum gives the mean
covariance of the two signals. -/
theorem C95_parseval {n : ℕ} [NeZero n] {u v : ZMod n → Ω → ℝ}
    (hint : ∀ x y, Integrable (fun ω => u x ω * v y ω) μ) {h : ℝ} (hh : h ≠ 0) :
    ∑ q, lineSpectrum μ h u v q * ((2 * Real.pi / (n * h) : ℝ) : ℂ) = ((∑ x, ∫ ω, u x ω * v x ω ∂μ) / n : ℝ) := by
  have hn : (n : ℂ) ≠ 0 := by exact_mod_cast NeZero.ne n
  have hpi : (Real.pi : ℂ) ≠ 0 := by exact_mod_cast Real.pi_ne_zero
  have hh' : (h : ℂ) ≠ 0 := by exact_mod_cast hh
  simp only [lineSpectrum_expand hint]
  rw [← Finset.sum_mul, ← Finset.mul_sum, Finset.sum_comm]
  have e : ∀ x : ZMod n, ∑ q : ZMod n, ∑ y, ((∫ ω, u x ω * v y ω ∂μ : ℝ) : ℂ) * (ZMod.stdAddChar (-(q * (x - y))) : ℂ) =
      n * ((∫ ω, u x ω * v x ω ∂μ : ℝ) : ℂ) := by
    intro x
    rw [Finset.sum_comm, Finset.sum_eq_single x]
    · simp [ZMod.card]
    · intro y _ hy
      rw [← Finset.mul_sum]
      have : ∑ q : ZMod n, (ZMod.stdAddChar (-(q * (x - y))) : ℂ) = 0 := by
        have h1 := sum_stdAddChar (n := n) (-(x - y))
        rw [if_neg (by rw [neg_eq_zero, sub_eq_zero]; exact fun h => hy h.symm)] at h1
        rw [← h1]
        exact Finset.sum_congr rfl fun q _ => by rw [mul_neg]
      rw [this, mul_zero]
    · simp
  simp only [e, ← Finset.mul_sum]
  push_cast
  field_simp

/-- The spectrum of a stationary pair of signals, from the Fourier series of its covariance. -/
theorem lineSpectrum_of_cov {n : ℕ} [NeZero n] {ι : Type} [Fintype ι] {u v : ZMod n → Ω → ℝ}
    (hint : ∀ x y, Integrable (fun ω => u x ω * v y ω) μ) (c : ℂ) (r : ι → ℂ) (κ : ι → ZMod n)
    (hcov : ∀ x y, ((∫ ω, u x ω * v y ω ∂μ : ℝ) : ℂ) = c * ∑ k, r k * ZMod.stdAddChar (κ k * (x - y))) (h : ℝ) (q : ZMod n) :
    lineSpectrum μ h u v q = ((h * n / (2 * Real.pi) : ℝ) : ℂ) * c * ∑ k, if κ k = q then r k else 0 := by
  have hn : (n : ℂ) ≠ 0 := by exact_mod_cast NeZero.ne n
  have hpi : (Real.pi : ℂ) ≠ 0 := by exact_mod_cast Real.pi_ne_zero
  rw [lineSpectrum_expand hint]
  simp only [hcov]
  have e : ∀ k, ∑ x : ZMod n, ∑ y : ZMod n, (ZMod.stdAddChar (κ k * (x - y)) : ℂ) * ZMod.stdAddChar (-(q * (x - y))) =
      if κ k = q then (n : ℂ) ^ 2 else 0 := by
    intro k
    have e1 : ∀ x y : ZMod n, (ZMod.stdAddChar (κ k * (x - y)) : ℂ) * ZMod.stdAddChar (-(q * (x - y))) =
        ZMod.stdAddChar (x * (κ k - q)) * ZMod.stdAddChar (y * (-(κ k - q))) := by
      intro x y
      rw [← AddChar.map_add_eq_mul, ← AddChar.map_add_eq_mul]
      congr 1
      ring
    simp only [e1, ← Finset.mul_sum, ← Finset.sum_mul, sum_stdAddChar, neg_eq_zero, sub_eq_zero]
    split_ifs <;> ring
  have e2 : ∑ x : ZMod n, ∑ y : ZMod n, c * (∑ k, r k * (ZMod.stdAddChar (κ k * (x - y)) : ℂ)) * ZMod.stdAddChar (-(q * (x - y))) =
      c * ∑ k, r k * ∑ x : ZMod n, ∑ y : ZMod n, (ZMod.stdAddChar (κ k * (x - y)) : ℂ) * ZMod.stdAddChar (-(q * (x - y))) := by
    simp only [Finset.mul_sum, Finset.sum_mul]
    rw [Finset.sum_comm' (t' := Finset.univ) (s' := fun _ => Finset.univ) (by simp)]
    have : ∀ y x : ZMod n, ∑ k, c * (r k * (ZMod.stdAddChar (κ k * (x - y)) : ℂ)) * ZMod.stdAddChar (-(q * (x - y))) =
        ∑ k, c * (r k * ((ZMod.stdAddChar (κ k * (x - y)) : ℂ) * ZMod.stdAddChar (-(q * (x - y))))) :=
      fun y x => Finset.sum_congr rfl fun k _ => by ring
    simp only [this]
    rw [Finset.sum_comm]
    calc _ = ∑ x : ZMod n, ∑ k, ∑ y : ZMod n, c * (r k * ((ZMod.stdAddChar (κ k * (x - y)) : ℂ) *
          ZMod.stdAddChar (-(q * (x - y))))) := Finset.sum_congr rfl fun x _ => Finset.sum_comm
      _ = _ := Finset.sum_comm
  rw [e2]
  simp only [e]
  have e3 : ∀ k, r k * (if κ k = q then (n : ℂ) ^ 2 else 0) = (n : ℂ) ^ 2 * if κ k = q then r k else 0 := by
    intro k; split_ifs <;> ring
  simp only [e3, ← Finset.mul_sum]
  push_cast
  field_simp

variable {n1 n2 n3 : ℕ} [NeZero n1] [NeZero n2] [NeZero n3]

theorem vfSample_memLp (ξ : Box n1 n2 n3 → Fin 3 → Ω → ℝ) (hL2 : ∀ x l, MemLp (ξ x l) 2 μ)
    (S : Box n1 n2 n3 → Matrix (Fin 3) (Fin 3) ℂ) (norm : ℝ) (x : Box n1 n2 n3) (i : Fin 3) :
    MemLp (fun ω => vfSample S norm (fun z l => ξ z l ω) x i) 2 μ := by
  have e : (fun ω => vfSample S norm (fun z l => ξ z l ω) x i) =
      fun ω => ∑ z, ∑ l, impulseR (completion S) norm i l (x - z) * ξ z l ω := by
    funext ω
    rw [← vfSample_completion, vfSample_impulseR (completion_hermitian S)]
  rw [e]
  exact memLp_finset_sum _ fun z _ => memLp_finset_sum _ fun l _ => (hL2 z l).const_mul _

/-- **C95** The spectrum along the mean-wind direction of the field sampled on a grid of odd sizes in the two other
directions, at every resolved wavenumber: the sum of the kernel's spectral tensor over the transverse wavenumbers. -/
theorem C95_spectrum (ξ : Box n1 n2 n3 → Fin 3 → Ω → ℝ)
    (hL2 : ∀ x l, MemLp (ξ x l) 2 μ) {h1 h2 h3 : ℝ} (p1 : 0 < h1) (p2 : 0 < h2) (p3 : 0 < h3)
    (hcov : ∀ x l y m, ∫ ω, ξ x l ω * ξ y m ω ∂μ = if x = y ∧ l = m then h1 * h2 * h3 else 0)
    (o2 : Odd n2) (o3 : Odd n3) {K : GenKernel} (hK : K.Valid) (y : ZMod n2) (z : ZMod n3) (i j : Fin 3)
    (q : ZMod n1) (hq : 2 * q.val ≠ n1) :
    let u := fun (i : Fin 3) (x : ZMod n1) (ω : Ω) =>
      vfSample (spectrumOf K.eval (h1 * n1) (h2 * n2) (h3 * n3)) (transformNorm (h1 * n1) (h2 * n2) (h3 * n3))
        (fun z l => ξ z l ω) (x, y, z) i
    lineSpectrum μ h1 (u i) (u j) q = ((h1 / (2 * Real.pi) : ℝ) : ℂ) * ((∑ k2 : ZMod n2, ∑ k3 : ZMod n3,
      (times1j (K.eval (freqOf (h1 * n1) (h2 * n2) (h3 * n3) (q, k2, k3))) *
        (times1j (K.eval (freqOf (h1 * n1) (h2 * n2) (h3 * n3) (q, k2, k3)))).conjTranspose) i j) / (n2 * n3)) := by
  intro u
  obtain ⟨R, -, hR, hc⟩ := C81_generator_any_grid ξ hL2 p1 p2 p3 hcov hK
  have hint : ∀ x x', Integrable (fun ω => u i x ω * u j x' ω) μ := fun x x' =>
    (vfSample_memLp ξ hL2 _ _ _ _).integrable_mul (vfSample_memLp ξ hL2 _ _ _ _)
  rw [lineSpectrum_of_cov hint (1 / (voxels n1 n2 n3 : ℂ)) (fun k => R k i j) (fun k : Box n1 n2 n3 => k.1) ?_ h1 q]
  · have e : ∑ k : Box n1 n2 n3, (if k.1 = q then R k i j else 0) = ∑ k2, ∑ k3, R (q, k2, k3) i j := by
      rw [Fintype.sum_prod_type, Finset.sum_eq_single q]
      · simp only [if_true]
        rw [Fintype.sum_prod_type]
      · intro k _ hk
        exact Finset.sum_eq_zero fun t _ => if_neg hk
      · simp
    rw [e]
    have e2 : ∀ k2 k3, R (q, k2, k3) i j = (times1j (K.eval (freqOf (h1 * n1) (h2 * n2) (h3 * n3) (q, k2, k3))) *
        (times1j (K.eval (freqOf (h1 * n1) (h2 * n2) (h3 * n3) (q, k2, k3)))).conjTranspose) i j := by
      intro k2 k3
      rw [hR]
      refine ⟨hq, ?_, ?_⟩
      · obtain ⟨m, hm⟩ := o2; simp only; omega
      · obtain ⟨m, hm⟩ := o3; simp only; omega
    simp only [e2]
    have a1 : (n1 : ℂ) ≠ 0 := by exact_mod_cast NeZero.ne n1
    have a2 : (n2 : ℂ) ≠ 0 := by exact_mod_cast NeZero.ne n2
    have a3 : (n3 : ℂ) ≠ 0 := by exact_mod_cast NeZero.ne n3
    have hpi : (Real.pi : ℂ) ≠ 0 := by exact_mod_cast Real.pi_ne_zero
    unfold voxels
    push_cast
    field_simp
  · intro x x'
    rw [hc]
    congr 1
    refine Finset.sum_congr rfl fun k _ => ?_
    congr 1
    simp [wave]

/-- Line spectrum of two components of the field sampled on the line `(·, y, z)`, from noise `ξ`. -/
def Spec.fieldSpectrum (μ : Measure Ω) (K : GenKernel) (h1 h2 h3 : ℝ) (ξ : Box n1 n2 n3 → Fin 3 → Ω → ℝ) (y : ZMod n2) (z : ZMod n3)
    (i j : Fin 3) (q : ZMod n1) : ℂ :=
  lineSpectrum μ h1
    (fun x ω => vfSample (spectrumOf K.eval (h1 * n1) (h2 * n2) (h3 * n3)) (transformNorm (h1 * n1) (h2 * n2) (h3 * n3))
      (fun z l => ξ z l ω) (x, y, z) i)
    (fun x ω => vfSample (spectrumOf K.eval (h1 * n1) (h2 * n2) (h3 * n3)) (transformNorm (h1 * n1) (h2 * n2) (h3 * n3))
      (fun z l => ξ z l ω) (x, y, z) j) q

/-- Integral over the rectangle of transverse wavenumbers that spacings `h2`, `h3` resolve. -/
def Spec.resolved (h2 h3 : ℝ) (f : ℝ → ℝ → ℝ) : ℝ :=
  ∫ k2 in (-(Real.pi / h2))..(Real.pi / h2), ∫ k3 in (-(Real.pi / h3))..(Real.pi / h3), f k2 k3

/-- Noise with the mean and covariance of the code's noise on a grid with cell volume `h1 h2 h3`. -/
def Spec.WhiteNoise (μ : Measure Ω) (v : ℝ) (ξ : Box n1 n2 n3 → Fin 3 → Ω → ℝ) : Prop :=
  (∀ x l, MemLp (ξ x l) 2 μ) ∧ ∀ x l y m, ∫ ω, ξ x l ω * ξ y m ω ∂μ = if x = y ∧ l = m then v else 0

/-- `Φ` is the spectrum of the fields from kernel `K` in the limit of many points: for spacings `h1, h2, h3`, every
`κ1 ≠ 0` and every tolerance, all boxes with enough (an odd number of) points in the transverse directions, any number in
the first, and all white noises give, at a resolved wavenumber `κ1`, the integral of `Φ` over the resolved rectangle times
the cell volume over `(2 pi)^3`. -/
def Spec.SpectrumLimit (K : GenKernel) (Φ : ℝ → ℝ → ℝ → Fin 3 → Fin 3 → ℝ) : Prop :=
  ∀ h1 h2 h3 κ1 e : ℝ, 0 < h1 → 0 < h2 → 0 < h3 → κ1 ≠ 0 → 0 < e → ∃ N : ℕ,
    ∀ (n1 n2 n3 : ℕ) [NeZero n1] [NeZero n2] [NeZero n3], Odd n2 → Odd n3 → N ≤ n2 → N ≤ n3 →
    ∀ (Ω : Type) [MeasurableSpace Ω] (μ : Measure Ω) (ξ : Box n1 n2 n3 → Fin 3 → Ω → ℝ), WhiteNoise μ (h1 * h2 * h3) ξ →
    ∀ (q : ZMod n1), 2 * q.val ≠ n1 → 2 * Real.pi / (h1 * n1) * fftIdx n1 q = κ1 → ∀ y z i j,
      ‖fieldSpectrum μ K h1 h2 h3 ξ y z i j q -
        ((h1 * h2 * h3 / (2 * Real.pi) ^ 3 * resolved h2 h3 fun k2 k3 => Φ κ1 k2 k3 i j : ℝ) : ℂ)‖ ≤ e

theorem spectrumLimit_of {K : GenKernel} (hK : K.Valid) {Φ : ℝ → ℝ → ℝ → Fin 3 → Fin 3 → ℝ}
    (hΦ : ∀ k1 k2 k3, k1 ≠ 0 → ∀ i j, (times1j (K.eval ⟨k1, k2, k3⟩) * (times1j (K.eval ⟨k1, k2, k3⟩)).conjTranspose) i j =
      ((Φ k1 k2 k3 i j : ℝ) : ℂ))
    (hc : ∀ k1, k1 ≠ 0 → ∀ i j, Continuous fun q : ℝ × ℝ => Φ k1 q.1 q.2 i j) : SpectrumLimit K Φ := by
  intro h1 h2 h3 κ1 e p1 p2 p3 hk he
  have hpi := Real.pi_pos
  have hb : ∀ f : ℝ → ℝ → ℝ, h1 / (2 * Real.pi) * bandAvg h2 (fun x => bandAvg h3 (f x)) =
      h1 * h2 * h3 / (2 * Real.pi) ^ 3 * resolved h2 h3 f := by
    intro f
    unfold bandAvg resolved
    rw [intervalIntegral.integral_const_mul]
    field_simp
  have he' : 0 < e / (h1 / (2 * Real.pi)) := by positivity
  have hN : ∀ i j : Fin 3, ∃ N : ℕ, ∀ (n2 n3 : ℕ) [NeZero n2] [NeZero n3], Odd n2 → Odd n3 → N ≤ n2 → N ≤ n3 →
      |fftAvg n2 h2 (fun x => fftAvg n3 h3 fun y => Φ κ1 x y i j) - bandAvg h2 fun x => bandAvg h3 fun y => Φ κ1 x y i j| ≤
        e / (h1 / (2 * Real.pi)) := fun i j =>
    fftAvg2_tendsto (f := fun x y => Φ κ1 x y i j) (hc κ1 hk i j) p2 p3 he'
  choose N hN using hN
  refine ⟨∑ i, ∑ j, N i j, ?_⟩
  intro n1 n2 n3 _ _ _ o2 o3 g2 g3 Ω _ μ ξ hξ q hq hκ y z i j
  have hle : N i j ≤ ∑ i, ∑ j, N i j :=
    (Finset.single_le_sum (f := fun j => N i j) (fun _ _ => Nat.zero_le _) (Finset.mem_univ j)).trans
      (Finset.single_le_sum (f := fun i => ∑ j, N i j) (fun _ _ => Nat.zero_le _) (Finset.mem_univ i))
  have hd := hN i j n2 n3 o2 o3 (hle.trans g2) (hle.trans g3)
  have hS := C95_spectrum ξ hξ.1 p1 p2 p3 hξ.2 o2 o3 hK y z i j q hq
  have hA : fieldSpectrum μ K h1 h2 h3 ξ y z i j q =
      ((h1 / (2 * Real.pi) * fftAvg n2 h2 (fun x => fftAvg n3 h3 fun y => Φ κ1 x y i j) : ℝ) : ℂ) := by
    unfold fieldSpectrum
    rw [hS, Complex.ofReal_mul]
    congr 1
    have e1 : ∀ k2 k3, freqOf (h1 * n1) (h2 * n2) (h3 * n3) (q, k2, k3) =
        ⟨κ1, 2 * Real.pi / (h2 * n2) * fftIdx n2 k2, 2 * Real.pi / (h3 * n3) * fftIdx n3 k3⟩ := by
      intro k2 k3
      unfold freqOf
      rw [← hκ]
    simp only [e1, hΦ _ _ _ hk]
    unfold fftAvg
    rw [← Finset.sum_div, div_div, mul_comm (n3 : ℝ)]
    push_cast
    rfl
  rw [hA, ← hb, ← Complex.ofReal_sub, Complex.norm_real, Real.norm_eq_abs, ← mul_sub, abs_mul,
    abs_of_pos (by positivity : 0 < h1 / (2 * Real.pi))]
  rwa [le_div_iff₀' (by positivity)] at hd

/-- **C95** Fields of the von Karman generator: the limit is the textbook isotropic tensor, integrated over the resolved
transverse wavenumbers. -/
theorem C95_limit_vk {L E0 : ℝ} (hL : 0 < L) (hE : 0 ≤ E0) :
    SpectrumLimit (.vk L E0) fun k1 k2 k3 i j => isoTensor (vkE L E0) ![k1, k2, k3] i j := by
  have hv : ∀ k1 k2 k3 : ℝ, k1 ≠ 0 → (K3.mk k1 k2 k3).vec ≠ 0 := fun k1 k2 k3 h h0 => h (by
    have := congrFun h0 0
    simpa [K3.vec] using this)
  refine spectrumLimit_of (K := .vk L E0) (And.intro hL hE) (fun k1 k2 k3 h i j => ?_) fun k1 h i j => ?_
  · have := (C10_vk_kernel hL hE ⟨k1, k2, k3⟩).2.2 (hv k1 k2 k3 h)
    have h2 := congrFun (congrFun this i) j
    simp only [Matrix.map_apply] at h2
    exact h2
  · have hc := cont_sheared (α := ℝ × ℝ) h continuous_fst continuous_snd (continuous_const (y := (0:ℝ)))
      (energyOf_cont hL E0 .vkLike) i j
    have e : (fun q : ℝ × ℝ => isoTensor (vkE L E0) ![k1, q.1, q.2] i j) = fun q : ℝ × ℝ =>
        shearedTensor (Spec.energyOf L E0 .vkLike) (K3.vec ⟨k1, q.1, q.2⟩) 0 i j := by
      funext q
      have hk : shearSq k1 q.1 q.2 0 ≠ 0 := by
        unfold shearSq
        have : 0 < k1 ^ 2 := by positivity
        positivity
      have hd : distortion (K3.vec ⟨k1, q.1, q.2⟩) 0 = 1 := by
        unfold distortion rdt1 rdt2 rdt3
        ext a b
        fin_cases a <;> fin_cases b <;> simp [K3.vec, hk]
      have hi : initialWave (K3.vec ⟨k1, q.1, q.2⟩) 0 = ![k1, q.1, q.2] := by
        simp [initialWave, K3.vec]
      unfold shearedTensor
      rw [hd, hi, Matrix.transpose_one, one_mul, mul_one]
      rfl
    rw [e]
    exact hc

theorem shear_limit {K : GenKernel} (hK : K.Valid) {L M : ℝ} (hL : 0 < L) (hM : 0 ≤ M) (p : OPSParams)
    (hp : p.LifetimeContinuous)
    (he : ∀ k : K3, k.k1 ≠ 0 → K.eval k = shearKernel L M k (eddyLifetime p.hyp p.ty p.L p.T k)) :
    SpectrumLimit K fun k1 k2 k3 i j =>
      shearedTensor (vkE L M) ![k1, k2, k3] (eddyLifetime p.hyp p.ty p.L p.T ⟨k1, k2, k3⟩).toReal i j := by
  refine spectrumLimit_of hK (fun k1 k2 k3 h i j => ?_) fun k1 h i j => ?_
  · obtain ⟨b, -, hb⟩ := hp k1 h
    have hb := hb (k2, k3)
    simp only at hb
    rw [he _ h, hb, toReal_fin]
    have := congrFun (congrFun (C14_kernel_square hL hM (k := ⟨k1, k2, k3⟩) h (b (k2, k3))) i) j
    simp only [Matrix.map_apply] at this
    exact this
  · obtain ⟨b, hb, e⟩ := hp k1 h
    simp only [e, toReal_fin]
    exact cont_sheared (α := ℝ × ℝ) h continuous_fst continuous_snd hb (energyOf_cont hL M .vkLike) i j

/-- **C95** Fields of the Mann generator: the limit is the tensor that the fitter, with the same length, magnitude and time
scales and the Mann lifetime, stands for. -/
theorem C95_limit_mann (p : OPSParams) (hy : IsMannHyp p.hyp) (ht : p.ty = .mann) (hs : p.sp = .vkLike) :
    SpectrumLimit (.mann p.hyp p.L p.M p.T) (Spec.fitTensor p) := by
  have hK : (GenKernel.mann p.hyp p.L p.M p.T).Valid := ⟨p.L_pos, (Real.exp_pos _).le, fun x hx => IsHyp2F1.mann_hyp_pos hy hx.le⟩
  have h := shear_limit hK p.L_pos (Real.exp_pos p.logM).le p (lifetimeContinuous_of p (by rw [ht]; exact hy)) (fun k hk => ?_)
  · have e : (fun k1 k2 k3 i j => shearedTensor (vkE p.L (Real.exp p.logM)) ![k1, k2, k3]
        (eddyLifetime p.hyp p.ty p.L p.T ⟨k1, k2, k3⟩).toReal i j) = Spec.fitTensor p := by
      funext k1 k2 k3 i j
      unfold Spec.fitTensor
      rw [hs]
      rfl
    rw [← e]
    exact h
  · have hv : k.vec ≠ 0 := fun h0 => hk (by
      have := congrFun h0 0
      simpa [K3.vec] using this)
    rw [ht, ← C03_mann_lifetime_agrees p.hyp p.L_pos p.T hv]
    rfl

/-- **C95** Fields of the generator with the trained network: the sheared von Karman tensor of the kernel's length scale at
the lifetime `Gamma * tauNet(h_ref k)`, i.e. the lifetime of the fitter at length scale `h_ref`. -/
theorem C95_limit_nn (net : TauNet) (hn : net.Nondegenerate) (ha : net.ContActs) {L E0 Γ h : ℝ} (hL : 0 < L) (hE : 0 ≤ E0)
    (hΓ : 0 < Γ) (hh : 0 < h) (hyp : ℝ → ℝ) :
    SpectrumLimit (.nn net L E0 Γ h) fun k1 k2 k3 i j =>
      shearedTensor (vkE L E0) ![k1, k2, k3] (eddyLifetime hyp (.taunet net) h Γ ⟨k1, k2, k3⟩).toReal i j := by
  let p : OPSParams := ⟨hyp, .taunet net, .vkLike, Real.log h, Real.log Γ, 0⟩
  have e1 : p.L = h := Real.exp_log hh
  have e2 : p.T = Γ := Real.exp_log hΓ
  have hK : (GenKernel.nn net L E0 Γ h).Valid := ⟨hL, hE, hn, hh.ne'⟩
  have hl := shear_limit hK hL hE p (lifetimeContinuous_of p ⟨hn, ha⟩) (fun k hk => ?_)
  · rw [e1, e2] at hl
    exact hl
  · have hv : k.vec ≠ 0 := fun h0 => hk (by
      have := congrFun h0 0
      simpa [K3.vec] using this)
    rw [e1, e2]
    have := C16_missing_length_scale hyp net hh.ne' Γ h hv
    rw [div_self hh.ne'] at this
    have ek : k.smul 1 = k := by simp [K3.smul]
    rw [ek] at this
    rw [show p.ty = .taunet net from rfl, show p.hyp = hyp from rfl, ← this]
    rfl

/-- **C95** What is fitted is what is generated: with transverse spacings `h = pi / 10^p2`, the spectrum predicted by the
fitter with the Mann lifetime, divided by `k1`, and the spectrum of the generated field at the same scales, times
`(2 pi)^3` over the cell volume, agree to any tolerance (plus the floor times the integrated area) on fine enough grids. -/
theorem C95_generator_matches_fitter (s : OPS) (hy : IsMannHyp s.hyp) (hk : s.kind = .mann) (hs : s.sp = .vkLike) (p2 : ℝ)
    {h1 k1 : ℝ} (hh : 0 < h1) (hk1 : 0 < k1) {e : ℝ} (he : 0 < e) :
    let h := Real.pi / (10:ℝ) ^ p2
    let K := GenKernel.mann s.hyp (Real.exp s.logL) (Real.exp s.logM) (Real.exp s.logT)
    let δ := e + 1e-12 * (2 * (10:ℝ) ^ p2) ^ 2
    ∃ P, ∀ p1 < P, ∃ N, ∀ n ≥ N, ∃ uu vv ww uw vw uv : ℝ,
      (OPS.forward [k1] { s with grid := opsGrid p1 p2 n }).1 = .ok [[fin uu], [fin vv], [fin ww], [fin uw], [fin vw], [fin uv]] ∧
      ∃ N' : ℕ, ∀ (n1 n2 n3 : ℕ) [NeZero n1] [NeZero n2] [NeZero n3], Odd n2 → Odd n3 → N' ≤ n2 → N' ≤ n3 →
      ∀ (Ω : Type) [MeasurableSpace Ω] (μ : Measure Ω) (ξ : Box n1 n2 n3 → Fin 3 → Ω → ℝ), WhiteNoise μ (h1 * h * h) ξ →
      ∀ (q : ZMod n1), 2 * q.val ≠ n1 → 2 * Real.pi / (h1 * n1) * fftIdx n1 q = k1 → ∀ y z,
        let F := fun i j => (((2 * Real.pi) ^ 3 / (h1 * h * h) : ℝ) : ℂ) * fieldSpectrum μ K h1 h h ξ y z i j q
        ‖((uu / k1 : ℝ) : ℂ) - F 0 0‖ ≤ δ ∧ ‖((vv / k1 : ℝ) : ℂ) - F 1 1‖ ≤ δ ∧ ‖((ww / k1 : ℝ) : ℂ) - F 2 2‖ ≤ δ ∧
        ‖((uw / k1 : ℝ) : ℂ) - F 0 2‖ ≤ δ := by
  intro h K δ
  have hpi := Real.pi_pos
  have h10 : (0:ℝ) < (10:ℝ) ^ p2 := Real.rpow_pos_of_pos (by norm_num) _
  have hp : 0 < h := div_pos hpi h10
  have hinv : Real.pi / h = (10:ℝ) ^ p2 := by
    simp only [h]; field_simp
  have ht : s.params.ty = .mann := by simp [OPS.params, OPS.ty, OPS.initApprox, hk]
  have hc : s.params.LifetimeContinuous := lifetimeContinuous_of _ (by rw [ht]; exact hy)
  obtain ⟨P, hP⟩ := C94_refinement s hc p2 hk1 (e := k1 * (e / 2)) (by positivity)
  refine ⟨P, fun p1 h1' => ?_⟩
  obtain ⟨N, hN⟩ := hP p1 h1'
  refine ⟨N, fun n hn => ?_⟩
  obtain ⟨uu, vv, ww, uw, vw, uv, hf, b1, b2, b3, b4, -, -⟩ := hN n hn
  refine ⟨uu, vv, ww, uw, vw, uv, hf, ?_⟩
  set c := h1 * h * h / (2 * Real.pi) ^ 3 with hcdef
  have hcpos : 0 < c := by positivity
  obtain ⟨N', hN'⟩ := C95_limit_mann s.params hy ht hs h1 h h k1 (c * (e / 2)) hh hp hp hk1.ne' (by positivity)
  refine ⟨N', fun n1 n2 n3 _ _ _ o2 o3 g2 g3 Ω _ μ ξ hξ q hq hκ y z => ?_⟩
  intro F
  have hq' := hN' n1 n2 n3 o2 o3 g2 g3 Ω μ ξ hξ q hq hκ y z
  have hres : ∀ f, resolved h h f = square ((10:ℝ) ^ p2) f := by
    intro f; unfold resolved square; rw [hinv]
  simp only [hres] at hq'
  have hF : ∀ i j, ‖F i j - ((square ((10:ℝ) ^ p2) (fun k2 k3 => Spec.fitTensor s.params k1 k2 k3 i j) : ℝ) : ℂ)‖ ≤ e / 2 := by
    intro i j
    have h2 := hq' i j
    have e1 : F i j - ((square ((10:ℝ) ^ p2) (fun k2 k3 => Spec.fitTensor s.params k1 k2 k3 i j) : ℝ) : ℂ) =
        ((1 / c : ℝ) : ℂ) * (fieldSpectrum μ K h1 h h ξ y z i j q -
          ((c * square ((10:ℝ) ^ p2) (fun k2 k3 => Spec.fitTensor s.params k1 k2 k3 i j) : ℝ) : ℂ)) := by
      have e2 : (2 * Real.pi) ^ 3 / (h1 * h * h) = 1 / c := by rw [hcdef, one_div_div]
      simp only [F]
      rw [e2, mul_sub, Complex.ofReal_mul c, ← mul_assoc (((1 / c : ℝ)) : ℂ), ← Complex.ofReal_mul, one_div_mul_cancel hcpos.ne',
        Complex.ofReal_one, one_mul]
    rw [e1, norm_mul, Complex.norm_real, Real.norm_eq_abs, abs_of_pos (by positivity : 0 < 1 / c), one_div, inv_mul_le_iff₀ hcpos]
    exact h2
  have hdiv : ∀ {x I w : ℝ}, |x - k1 * I| ≤ k1 * w → |x / k1 - I| ≤ w := by
    intro x I w hx
    have : x / k1 - I = (x - k1 * I) / k1 := by field_simp
    rw [this, abs_div, abs_of_pos hk1, div_le_iff₀ hk1, mul_comm w]
    exact hx
  have hcomb : ∀ {x I : ℝ} {G : ℂ}, |x - I| ≤ e / 2 + 1e-12 * (2 * (10:ℝ) ^ p2) ^ 2 → ‖G - (I : ℂ)‖ ≤ e / 2 →
      ‖((x : ℝ) : ℂ) - G‖ ≤ δ := by
    intro x I G hx hG
    have : (x : ℂ) - G = ((x - I : ℝ) : ℂ) - (G - (I : ℂ)) := by push_cast; ring
    rw [this]
    refine (norm_sub_le _ _).trans ?_
    rw [Complex.norm_real, Real.norm_eq_abs]
    simp only [δ]
    linarith
  have hdiag : ∀ {x : ℝ} (i : Fin 3),
      |x - k1 * square ((10:ℝ) ^ p2) fun k2 k3 => max (Spec.fitTensor s.params k1 k2 k3 i i) 1e-12| ≤ k1 * (e / 2) →
      ‖((x / k1 : ℝ) : ℂ) - F i i‖ ≤ δ := by
    intro x i hx
    refine hcomb ?_ (hF i i)
    have h1 := hdiv hx
    have h2 := C94_floor_bias s.params hc hk1.ne' h10.le i
    rw [abs_le] at h1 ⊢
    constructor <;> nlinarith [h1.1, h1.2, h2.1, h2.2, sq_nonneg (2 * (10:ℝ) ^ p2)]
  refine ⟨hdiag 0 b1, hdiag 1 b2, hdiag 2 b3, hcomb (hdiv ?_) (hF 0 2)⟩
  refine b4.trans (le_of_eq ?_)
  ring

/-- Standard normal values times the square root of the cell volume are white noise in this sense. -/
example {h1 h2 h3 : ℝ} (p1 : 0 < h1) (p2 : 0 < h2) (p3 : 0 < h3) :
    ∃ ξ : Box n1 n2 n3 → Fin 3 → (Box n1 n2 n3 × Fin 3 → ℝ) → ℝ, WhiteNoise (stdNormal _) (h1 * h2 * h3) ξ := by
  refine ⟨fun x l ω => Real.sqrt (h1 * h2 * h3) * ω (x, l), fun x l => stdNormal_memLp _ _, fun x l y m => ?_⟩
  rw [stdNormal_cov, Real.sq_sqrt (by positivity)]
  simp only [Prod.mk.injEq]

/-- A wavenumber of every box whose length is a multiple of its wavelength: index 1 of `n1` points at spacing `1 / n1`. -/
example : ∀ n1 : ℕ, [NeZero n1] → 3 ≤ n1 → ∃ q : ZMod n1, 2 * q.val ≠ n1 ∧ 2 * Real.pi / ((1 / n1 : ℝ) * n1) * fftIdx n1 q = 2 * Real.pi := by
  intro n1 _ h
  have hn : (n1 : ℝ) ≠ 0 := by exact_mod_cast NeZero.ne n1
  haveI : Fact (1 < n1) := ⟨by omega⟩
  refine ⟨1, by rw [ZMod.val_one]; omega, ?_⟩
  unfold fftIdx
  rw [ZMod.val_one, if_pos (by omega)]
  field_simp
  simp

end
end Verif
