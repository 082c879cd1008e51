import Verif.Lemmas.Beta
import Mathlib.Algebra.Order.Star.Real

/-!
# Covariance kernels: C10 - C15, C77, C78

`times1j` turns the model's real matrix into the complex kernel `G`; `Gᴴ` is the conjugate transpose.
-/

namespace Verif
open Fl Verif.Spec Matrix

noncomputable section

/-- **C10** The VK kernel is finite, incompressible and a square root of the textbook von Karman tensor. -/
theorem C10_vk_kernel {L E0 : ℝ} (hL : 0 < L) (hE : 0 ≤ E0) (k : K3) :
    (∀ i j, (vkKernel L E0 k i j).IsFin) ∧
    (∀ j, ∑ i, (k.vec i : ℂ) * times1j (vkKernel L E0 k) i j = 0) ∧
    (k.vec ≠ 0 →
      times1j (vkKernel L E0 k) * (times1j (vkKernel L E0 k))ᴴ =
        (isoTensor (vkE L E0) k.vec).map (fun x : ℝ => (x : ℂ))) := by
  have hc := kernelConst_fin hL hE (kkR_nonneg k)
  have hk : ∀ i j, vkKernel L E0 k i j = fin (constR L E0 (kkR k) *
      (![![0, -k.k3, k.k2], ![k.k3, 0, -k.k1], ![-k.k2, k.k1, 0]] : Fin 3 → Fin 3 → ℝ) i j) := by
    intro i j
    unfold vkKernel
    rw [kkR_pow]
    simp only [hc]
    fin_cases i <;> fin_cases j <;> simp [crossMat]
  refine ⟨fun i j => by rw [hk]; trivial, fun j => ?_, fun hne => ?_⟩
  · simp only [times1j, hk, toReal_fin, Fin.sum_univ_three]
    fin_cases j <;> simp [K3.vec] <;> ring
  · have hkp : 0 < kkR k := by
      refine lt_of_le_of_ne (kkR_nonneg k) fun h => hne ?_
      obtain ⟨h1, h2, h3⟩ := kkR_eq_zero h.symm
      funext i; fin_cases i <;> simp [K3.vec, h1, h2, h3]
    have hsq := constR_sq hL hE hkp
    have hP : ∀ i j, isoTensor (vkE L E0) k.vec i j =
        constR L E0 (kkR k) * constR L E0 (kkR k) * ((if i = j then kkR k else 0) - k.vec i * k.vec j) := by
      intro i j
      rw [hsq]
      unfold isoTensor
      rw [sq3_vec]
      have := hkp.ne'
      have := Real.pi_ne_zero
      split_ifs <;> (field_simp; try ring)
    ext i j
    rw [Matrix.map_apply, hP]
    have e : ∀ i m, times1j (vkKernel L E0 k) i m = Complex.I * ((constR L E0 (kkR k) *
      (![![0, -k.k3, k.k2], ![k.k3, 0, -k.k1], ![-k.k2, k.k1, 0]] : Fin 3 → Fin 3 → ℝ) i m : ℝ) : ℂ) := by
      intro i m; simp only [times1j, hk, toReal_fin]
    simp only [Matrix.mul_apply, Matrix.conjTranspose_apply, e, Fin.sum_univ_three]
    fin_cases i <;> fin_cases j <;> simp [K3.vec, kkR] <;> ring_nf <;> simp [Complex.I_sq]

example : (0:ℝ) < 2 ∧ (0:ℝ) ≤ 3 ∧ (K3.mk 1 0 2).vec ≠ 0 :=
  ⟨by norm_num, by norm_num, fun h => by have := congrFun h 0; simp [K3.vec] at this⟩

/-- Incompressibility of the sheared kernel for a finite eddy lifetime. -/
theorem shear_div {L E0 b : ℝ} (hL : 0 < L) (hE : 0 ≤ E0) (k : K3) (j : Fin 3) :
    ∑ i, (k.vec i : ℂ) * times1j (shearKernel L E0 k (fin b)) i j = 0 := by
  simp only [times1j, shearKernel_fin hL hE, toReal_fin, Fin.sum_univ_three]
  have := congrArg (fun x : ℝ => (x : ℂ)) (kerR_div k b j)
  push_cast at this
  push_cast
  have e0 : k.vec 0 = k.k1 := rfl
  have e1 : k.vec 1 = k.k2 := rfl
  have e2 : k.vec 2 = k.k3 := rfl
  rw [e0, e1, e2]
  linear_combination (Complex.I * (constR L E0 (kk0R k b) : ℂ)) * this

/-- **C11** Mann kernel: `k · G = 0` at every wavevector (singular ones included). `hyp` is any function that is
positive on the negative axis, as `2F1(1/3,17/6;4/3;·)` is. -/
theorem C11_mann_divergence_free {hyp : ℝ → ℝ} {L E0 : ℝ} (G : ℝ) (hL : 0 < L) (hE : 0 ≤ E0)
    (hh : ∀ x < 0, 0 < hyp x) (k : K3) (j : Fin 3) :
    ∑ i, (k.vec i : ℂ) * times1j (mannKernel hyp L E0 G k) i j = 0 := by
  rw [mannKernel, mannBeta_eq G hL hh]
  exact shear_div hL hE k j

/-- **C11** DRD kernel: `k · G = 0` at every wavevector. -/
theorem C11_nn_divergence_free {net : TauNet} {L E0 h : ℝ} (G : ℝ) (hL : 0 < L) (hE : 0 ≤ E0)
    (hn : net.Nondegenerate) (hh : h ≠ 0) (k : K3) (j : Fin 3) :
    ∑ i, (k.vec i : ℂ) * times1j (nnKernel net L E0 G h k) i j = 0 := by
  obtain ⟨b, hb⟩ := nnBeta_fin hn G hh k
  rw [nnKernel, hb]
  exact shear_div hL hE k j

/-- **C12** Mann kernel: all entries are finite numbers, and the kernel vanishes at `k = 0`. -/
theorem C12_mann_finite {hyp : ℝ → ℝ} {L E0 : ℝ} (G : ℝ) (hL : 0 < L) (hE : 0 ≤ E0)
    (hh : ∀ x < 0, 0 < hyp x) (k : K3) :
    (∀ i j, (mannKernel hyp L E0 G k i j).IsFin) ∧
    (k.vec = 0 → ∀ i j, mannKernel hyp L E0 G k i j = fin 0) := by
  refine ⟨fun i j => ?_, fun hk i j => ?_⟩
  · rw [mannKernel, mannBeta_eq G hL hh, shearKernel_fin hL hE]; trivial
  · have h1 : k.k1 = 0 := congrFun hk 0
    have h2 : k.k2 = 0 := congrFun hk 1
    have h3 : k.k3 = 0 := congrFun hk 2
    rw [mannKernel, mannBeta_eq G hL hh, shearKernel_fin hL hE]
    congr 1
    have : kerR k 0 i j = 0 := by
      unfold kerR k30R
      fin_cases i <;> fin_cases j <;> simp [h1, h2, h3]
    have hk0 : kkR k = 0 := by simp [kkR, h1, h2, h3]
    simp [hk0, this]

/-- **C12** DRD kernel: all entries are finite numbers, and the kernel vanishes at `k = 0`. -/
theorem C12_nn_finite {net : TauNet} {L E0 h : ℝ} (G : ℝ) (hL : 0 < L) (hE : 0 ≤ E0)
    (hn : net.Nondegenerate) (hh : h ≠ 0) (k : K3) :
    (∀ i j, (nnKernel net L E0 G h k i j).IsFin) ∧
    (k.vec = 0 → ∀ i j, nnKernel net L E0 G h k i j = fin 0) := by
  obtain ⟨b, hb⟩ := nnBeta_fin hn G hh k
  refine ⟨fun i j => ?_, fun hk i j => ?_⟩
  · rw [nnKernel, hb, shearKernel_fin hL hE]; trivial
  · have h1 : k.k1 = 0 := congrFun hk 0
    have h2 : k.k2 = 0 := congrFun hk 1
    have h3 : k.k3 = 0 := congrFun hk 2
    rw [nnKernel, hb, shearKernel_fin hL hE]
    congr 1
    have : kerR k b i j = 0 := by
      unfold kerR k30R
      fin_cases i <;> fin_cases j <;> simp [h1, h2, h3]
    simp [this]

/-- The kernels C11/C12 talk about exist and are not trivially zero: a network with zero weights (identity
augmentation) is nondegenerate, for any `nu`. -/
def idNet (nu : ℝ) : TauNet := ⟨[[[0, 0, 0]], [[0], [0], [0]]], [reluVec], nu⟩

theorem idNet_mlp (nu x y z : ℝ) : (idNet nu).mlpForward [x, y, z] = [x, y, z] := by
  simp [TauNet.mlpForward, idNet, linear, reluVec]

theorem idNet_nondegenerate (nu : ℝ) : (idNet nu).Nondegenerate := by
  intro x y z h
  rw [idNet_mlp]
  simp only [vecNorm, List.map_cons, List.map_nil, List.sum_cons, List.sum_nil, abs_mul_abs_self]
  rw [Real.sqrt_ne_zero']
  by_contra hc
  apply h
  refine ⟨?_, ?_, ?_⟩ <;> nlinarith [sq_nonneg x, sq_nonneg y, sq_nonneg z]

example : ∃ net : TauNet, net.Nondegenerate := ⟨_, idNet_nondegenerate (-1 / 3)⟩
example : ∀ x < (0:ℝ), (0:ℝ) < (fun _ => 1 : ℝ → ℝ) x := fun _ _ => one_pos

theorem shear_conj {L E0 b : ℝ} (hL : 0 < L) (hE : 0 ≤ E0) (k : K3) :
    times1j (shearKernel L E0 k.neg (fin b)) = (times1j (shearKernel L E0 k (fin b))).map (starRingEnd ℂ) := by
  ext i j
  simp only [times1j, shearKernel_fin hL hE, toReal_fin, kerR_neg, kk0R_neg, Matrix.map_apply]
  simp

/-- **C13** VK kernel: `G(-k)` is the complex conjugate of `G(k)`. -/
theorem C13_vk_hermitian {L E0 : ℝ} (hL : 0 < L) (hE : 0 ≤ E0) (k : K3) :
    times1j (vkKernel L E0 k.neg) = (times1j (vkKernel L E0 k)).map (starRingEnd ℂ) := by
  have hc := kernelConst_fin hL hE (kkR_nonneg k)
  ext i j
  simp only [times1j, vkKernel, kkR_pow, kkR_neg, hc, Matrix.map_apply]
  fin_cases i <;> fin_cases j <;> simp [crossMat, K3.neg]

/-- **C13** Mann kernel: `G(-k)` is the complex conjugate of `G(k)`. -/
theorem C13_mann_hermitian {hyp : ℝ → ℝ} {L E0 : ℝ} (G : ℝ) (hL : 0 < L) (hE : 0 ≤ E0)
    (hh : ∀ x < 0, 0 < hyp x) (k : K3) :
    times1j (mannKernel hyp L E0 G k.neg) = (times1j (mannKernel hyp L E0 G k)).map (starRingEnd ℂ) := by
  rw [mannKernel, mannKernel, mannBeta_neg, mannBeta_eq G hL hh, shear_conj hL hE]

/-- **C13** DRD kernel: `G(-k)` is the complex conjugate of `G(k)`. -/
theorem C13_nn_hermitian {net : TauNet} {L E0 h : ℝ} (G : ℝ) (hL : 0 < L) (hE : 0 ≤ E0)
    (hn : net.Nondegenerate) (hh : h ≠ 0) (k : K3) :
    times1j (nnKernel net L E0 G h k.neg) = (times1j (nnKernel net L E0 G h k)).map (starRingEnd ℂ) := by
  obtain ⟨b, hb⟩ := nnBeta_fin hn G hh k
  rw [nnKernel, nnKernel, nnBeta_neg, hb, shear_conj hL hE]

/-- **C77** For `k1 ≠ 0` the coefficients computed by the code are the exact solution of the rapid-distortion
equations (stated as integrals along the shearing wavevector), for every strain `b`. -/
theorem C77_rdt_solution {k : K3} (h : k.k1 ≠ 0) (b : ℝ) :
    rdtZeta k (fin b) =
      (fin (rdt1 k.k1 k.k2 (k.k3 + b * k.k1) b), fin (rdt2 k.k1 k.k2 (k.k3 + b * k.k1) b),
        fin (rdt3 k.k1 k.k2 (k.k3 + b * k.k1) b)) := by
  rw [rdtZeta_fin h, z1R_eq h, z2R_eq h, z3R_eq]
  rfl

example : (K3.mk 1 2 (-3)).k1 ≠ 0 := one_ne_zero

/-- **C14** The sheared kernel (Mann and DRD share it) is a square root of the sheared von Karman tensor. -/
theorem C14_kernel_square {L M : ℝ} (hL : 0 < L) (hM : 0 ≤ M) {k : K3} (h : k.k1 ≠ 0) (b : ℝ) :
    times1j (shearKernel L M k (fin b)) * (times1j (shearKernel L M k (fin b)))ᴴ =
      (shearedTensor (vkE L M) k.vec b).map (fun x : ℝ => (x : ℂ)) := by
  have hk0 := kk0R_pos (b := b) h
  ext i j
  rw [Matrix.map_apply, shearedTensor_eq h, ← constR_sq hL hM hk0]
  simp only [Matrix.mul_apply, Matrix.conjTranspose_apply, times1j, shearKernel_fin hL hM, toReal_fin,
    Fin.sum_univ_three]
  push_cast
  simp only [star_mul', Complex.star_def, Complex.conj_I, Complex.conj_ofReal]
  linear_combination (-(constR L M (kk0R k b) : ℂ) * (constR L M (kk0R k b) : ℂ) *
    ((kerR k b i 0 : ℂ) * kerR k b j 0 + kerR k b i 1 * kerR k b j 1 + kerR k b i 2 * kerR k b j 2)) *
    Complex.I_mul_I

/-- **C14** The tensor integrated by the fitter (before its epsilon floor) is the same sheared tensor, in all six
components, for the same `beta`, length scale and amplitude. -/
theorem C14_fitter_tensor {L M : ℝ} (hL : 0 < L) {k : K3} (h : k.k1 ≠ 0) (b : ℝ) :
    phiRaw k (fin b) (energyE0 .vkLike L M k (fin b) / fin (4 * Real.pi)) =
      { p11 := fin (shearedTensor (vkE L M) k.vec b 0 0)
        p22 := fin (shearedTensor (vkE L M) k.vec b 1 1)
        p33 := fin (shearedTensor (vkE L M) k.vec b 2 2)
        p13 := fin (shearedTensor (vkE L M) k.vec b 0 2)
        p23 := fin (shearedTensor (vkE L M) k.vec b 1 2)
        p12 := fin (shearedTensor (vkE L M) k.vec b 0 1) } := by
  have hk0 := kk0R_pos (b := b) h
  have hk := kkR_pos h
  have hpi : 4 * Real.pi ≠ 0 := by positivity
  rw [energyE0_vk hL hk0, fin_div_fin _ hpi, phiRaw_fin h]
  simp only [shearedTensor_eq h, Fin.sum_univ_three, kerR, zc_generic h]
  generalize vkE L M (Real.sqrt (kk0R k b)) / (4 * Real.pi) = w
  have hk0' := hk0.ne'
  have hk' := hk.ne'
  have e : kk0R k b = k.k1 * k.k1 + k.k2 * k.k2 + k30R k b * k30R k b := rfl
  have es : sR k = k.k1 * k.k1 + k.k2 * k.k2 := rfl
  congr 2
  · simp; left; rw [e, es]; ring
  · simp; left; rw [e, es]; ring
  · simp [z3R]; field_simp; rw [es]; ring
  · simp [z3R]; field_simp; rw [es]; ring
  · simp [z3R]; field_simp; rw [es]; ring
  · simp; left; rw [es]; ring

example : (0:ℝ) < 1 ∧ (K3.mk 2 1 1).k1 ≠ 0 := ⟨one_pos, two_ne_zero⟩

/-- The symmetric matrix assembled from the six components. -/
def Phi6.matrix (p : Phi6) : Matrix (Fin 3) (Fin 3) ℝ :=
  !![p.p11.toReal, p.p12.toReal, p.p13.toReal;
     p.p12.toReal, p.p22.toReal, p.p23.toReal;
     p.p13.toReal, p.p23.toReal, p.p33.toReal]

/-- **C15** For `k1 ≠ 0` and any non-negative energy the six components before the floor are finite and form a
positive semidefinite matrix annihilated by the wavevector. -/
theorem C15_psd {k : K3} (h : k.k1 ≠ 0) (b : ℝ) {e : ℝ} (he : 0 ≤ e) :
    (∀ x ∈ (phiRaw k (fin b) (fin e)).toList, x.IsFin) ∧
    (phiRaw k (fin b) (fin e)).matrix.PosSemidef ∧
    (phiRaw k (fin b) (fin e)).matrix.mulVec k.vec = 0 := by
  have hk0 := kk0R_pos (b := b) h
  have hk := kkR_pos h
  have hk0' := hk0.ne'
  have hk' := hk.ne'
  have hm : (phiRaw k (fin b) (fin e)).matrix = (e / (kk0R k b * kk0R k b)) •
      (Matrix.of (kerR k b) * (Matrix.of (kerR k b)).transpose) := by
    have ee : kk0R k b = k.k1 * k.k1 + k.k2 * k.k2 + k30R k b * k30R k b := rfl
    have es : sR k = k.k1 * k.k1 + k.k2 * k.k2 := rfl
    rw [phiRaw_fin h]
    ext i j
    simp only [Matrix.smul_apply, Matrix.mul_apply, Matrix.transpose_apply, Matrix.of_apply, Fin.sum_univ_three,
      kerR, zc_generic h, Phi6.matrix, toReal_fin, smul_eq_mul]
    fin_cases i <;> fin_cases j <;> simp [z3R, -mul_eq_mul_left_iff] <;> field_simp <;> simp only [ee, es] <;> ring
  refine ⟨?_, ?_, ?_⟩
  · rw [phiRaw_fin h]; intro x hx
    simp [Phi6.toList] at hx
    rcases hx with rfl | rfl | rfl | rfl | rfl | rfl <;> trivial
  · rw [hm]
    refine Matrix.PosSemidef.smul ?_ (by positivity)
    have := Matrix.posSemidef_self_mul_conjTranspose (Matrix.of (kerR k b))
    rwa [Matrix.conjTranspose_eq_transpose_of_trivial] at this
  · rw [hm, Matrix.smul_mulVec, ← Matrix.mulVec_mulVec]
    have : (Matrix.of (kerR k b)).transpose.mulVec k.vec = 0 := by
      ext j
      simp only [Matrix.mulVec, dotProduct, Fin.sum_univ_three, Matrix.transpose_apply, Matrix.of_apply]
      have := kerR_div k b j
      simp only [K3.vec]
      simp
      linarith
    rw [this]; simp

example : (K3.mk 1 1 1).k1 ≠ 0 ∧ (0:ℝ) ≤ 5 := ⟨one_ne_zero, by norm_num⟩

/-- **C78** On the plane `k1 = 0` the code uses no distortion at all (its coefficients after `nan_to_num` are
`0, 0, 1`), while the rapid-distortion solution there is `(-b, 0, 1)`. -/
theorem C78_plane_k1_zero {k : K3} (h : k.k1 = 0) (hk : k.vec ≠ 0) (b : ℝ) :
    (nanToNum (rdtZeta k (fin b)).1, nanToNum (rdtZeta k (fin b)).2.1, nanToNum (rdtZeta k (fin b)).2.2)
      = (0, 0, 1) ∧
    (rdt1 k.k1 k.k2 (k.k3 + b * k.k1) b, rdt2 k.k1 k.k2 (k.k3 + b * k.k1) b,
      rdt3 k.k1 k.k2 (k.k3 + b * k.k1) b) = (-b, 0, 1) := by
  have hkk : kkR k ≠ 0 := by
    intro h0
    obtain ⟨h1, h2, h3⟩ := kkR_eq_zero h0
    exact hk (by funext i; fin_cases i <;> simp [K3.vec, h1, h2, h3])
  refine ⟨zc_k1_zero h hkk, ?_⟩
  have hs : shearSq 0 k.k2 k.k3 = fun _ => kkR k := by
    funext t; simp [shearSq, kkR, h]; ring
  simp [rdt1, rdt2, rdt3, h, hs, hkk]

/-- **C78** Consequently, for `k1 = 0`, `k2 ≠ 0` and a non-zero eddy lifetime, the generator's streamwise spectral
density is strictly smaller than that of the sheared tensor. -/
theorem C78_underestimates {L E0 : ℝ} (hL : 0 < L) (hE : 0 < E0) {k : K3} (h : k.k1 = 0) (h2 : k.k2 ≠ 0)
    {b : ℝ} (hb : b ≠ 0) :
    ∑ m, ((shearKernel L E0 k (fin b) 0 m).toReal) ^ 2 < shearedTensor (vkE L E0) k.vec b 0 0 := by
  have hkk : 0 < kkR k := by
    unfold kkR; nlinarith [mul_self_pos.2 h2, sq_nonneg k.k1, sq_nonneg k.k3]
  have hne : k.vec ≠ 0 := fun h0 => h2 (congrFun h0 1)
  obtain ⟨-, hr⟩ := C78_plane_k1_zero h hne b
  obtain ⟨r1, r23⟩ := Prod.mk.inj hr
  have h30 : k30R k b = k.k3 := by simp [k30R, h]
  have hkk0 : kk0R k b = kkR k := by unfold kk0R; rw [h30]; rfl
  have e1 : shearedTensor (vkE L E0) k.vec b 0 0 =
      constR L E0 (kkR k) * constR L E0 (kkR k) * (k.k2 * k.k2 + k.k3 * k.k3 + b * b * (k.k2 * k.k2)) := by
    rw [constR_sq hL hE.le hkk]
    have hP : ∀ i j, isoTensor (vkE L E0) (K3.vec ⟨k.k1, k.k2, k30R k b⟩) i j =
        vkE L E0 (Real.sqrt (kkR k)) / (4 * Real.pi) / (kkR k * kkR k) * ((if i = j then kkR k else 0) -
          K3.vec ⟨k.k1, k.k2, k30R k b⟩ i * K3.vec ⟨k.k1, k.k2, k30R k b⟩ j) := by
      intro i j
      unfold isoTensor
      rw [sq3_vec, kkR_init, hkk0]
      have := hkk.ne'
      have := Real.pi_ne_zero
      split_ifs <;> (field_simp; try ring)
    unfold shearedTensor
    rw [initialWave_vec]
    simp only [Matrix.mul_apply, Matrix.transpose_apply, Fin.sum_univ_three, hP]
    have e3 : kkR k = k.k2 * k.k2 + k.k3 * k.k3 := by simp [kkR, h]
    rw [h] at r1
    simp [distortion, K3.vec, h, h30] at r1 ⊢
    rw [r1, e3]
    ring
  rw [e1]
  simp only [shearKernel_fin hL hE.le, toReal_fin, Fin.sum_univ_three, kerR, zc_k1_zero h hkk.ne', h30, hkk0]
  simp
  have hc : 0 < constR L E0 (kkR k) := Real.sqrt_pos.2 (by positivity)
  have : 0 < constR L E0 (kkR k) * constR L E0 (kkR k) * (b * b * (k.k2 * k.k2)) := by
    have := mul_self_pos.2 hb
    have := mul_self_pos.2 h2
    positivity
  nlinarith

example : (K3.mk 0 1 2).k1 = 0 ∧ (K3.mk 0 1 2).k2 ≠ 0 := ⟨rfl, one_ne_zero⟩

end
end Verif
