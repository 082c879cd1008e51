import Verif.Props.GeneratorMirror
import Verif.Props.Covariance
import Verif.Props.FieldSpectrum

/-!
# Symmetries of the covariance of sampled vector fields (C117)
-/

namespace Verif
open Fl Spec

noncomputable section
open Classical MeasureTheory

section
variable {n1 n2 n3 : ℕ} [NeZero n1] [NeZero n2] [NeZero n3] {Ω : Type} [MeasurableSpace Ω] {μ : Measure Ω}

/-- **C117.**  A vector field sampled from white noise with any of the covariances, on a grid of odd sizes: the covariance of
the lateral component with another component vanishes for any two points at the same lateral position. -/
theorem C117_lateral (ξ : Box n1 n2 n3 → Fin 3 → Ω → ℝ)
    (hL2 : ∀ x l, MemLp (ξ x l) 2 μ) {h1 h2 h3 : ℝ} (p1 : 0 < h1) (p2 : 0 < h2) (p3 : 0 < h3)
    (hcov : ∀ x l y m, ∫ ω, ξ x l ω * ξ y m ω ∂μ = if x = y ∧ l = m then h1 * h2 * h3 else 0)
    (o1 : Odd n1) (o2 : Odd n2) (o3 : Odd n3) {K : GenKernel} (hK : K.Valid) {x y : Box n1 n2 n3}
    (hxy : x.2.1 = y.2.1) {i : Fin 3} (hi : i ≠ 1) :
    let S : Box n1 n2 n3 → Matrix (Fin 3) (Fin 3) ℂ := spectrumOf K.eval (h1 * n1) (h2 * n2) (h3 * n3)
    ∫ ω, vfSample S (transformNorm (h1 * n1) (h2 * n2) (h3 * n3)) (fun z l => ξ z l ω) x i *
      vfSample S (transformNorm (h1 * n1) (h2 * n2) (h3 * n3)) (fun z l => ξ z l ω) y 1 ∂μ = 0 := by
  intro S
  have h := C81_generator ξ hL2 p1 p2 p3 hcov o1 o2 o3 hK x y i 1
  simp only at h
  have hS : ∀ k i l, S (Box.mir k) i l = -(Spec.side i * Spec.side l : ℝ) * S k i l := by
    intro k i l
    simp only [S, spectrumOf]
    rw [freqOf_mir o2, eval_mirror hK]
  have hd : (x - y).mir = x - y := by
    refine Prod.ext rfl (Prod.ext ?_ rfl)
    change -(x.2.1 - y.2.1) = x.2.1 - y.2.1
    rw [hxy, sub_self, neg_zero]
  have hz : ∑ k, (S k * (S k).conjTranspose) i 1 * wave k (x - y) = 0 := by
    have e : ∑ k, (S k * (S k).conjTranspose) i 1 * wave k (x - y) =
        ∑ k, -((S k * (S k).conjTranspose) i 1 * wave k (x - y)) := by
      rw [← mirEquiv.sum_comp]
      refine Finset.sum_congr rfl fun k _ => ?_
      change (S k.mir * (S k.mir).conjTranspose) i 1 * wave k.mir (x - y) = _
      rw [wave_mir, hd, ← neg_mul]
      congr 1
      simp only [Matrix.mul_apply, Matrix.conjTranspose_apply, hS]
      rw [← Finset.sum_neg_distrib]
      refine Finset.sum_congr rfl fun l _ => ?_
      have h1 : ((Spec.side l : ℝ) : ℂ) * Spec.side l = 1 := by exact_mod_cast side_sq l
      have h2 : Spec.side 1 = -1 := by simp [Spec.side]
      have h3 : Spec.side i = 1 := by simp [Spec.side, hi]
      rw [h2, h3]
      simp only [star_mul', RCLike.star_def, map_neg, Complex.conj_ofReal]
      push_cast
      linear_combination (-(S k i l * (starRingEnd ℂ) (S k 1 l))) * h1
    rw [Finset.sum_neg_distrib] at e
    exact self_eq_neg.1 e
  rw [hz, mul_zero] at h
  exact_mod_cast h

end

/-! ### Isotropy -/

section
variable {n : ℕ} [NeZero n] {Ω : Type} [MeasurableSpace Ω] {μ : Measure Ω}

/-- The three indices of a grid point of a cube. -/
def Spec.coord (x : Box n n n) : Fin 3 → ZMod n := ![x.1, x.2.1, x.2.2]

theorem coord_inj {x y : Box n n n} (h : Spec.coord x = Spec.coord y) : x = y := by
  have h0 := congrFun h 0
  have h1 := congrFun h 1
  have h2 := congrFun h 2
  exact Prod.ext h0 (Prod.ext h1 h2)

theorem wave_coord (k x : Box n n n) : wave k x = ∏ a, (ZMod.stdAddChar (Spec.coord k a * Spec.coord x a) : ℂ) := by
  simp [wave, Spec.coord, Fin.prod_univ_three]

/-- The symmetry of the cube that maps axis `a` to axis `σ a` with sign `s a`. -/
def cubeMap (σ : Equiv.Perm (Fin 3)) (s : Fin 3 → ℤˣ) (x : Box n n n) : Box n n n :=
  let f := fun a => ((s (σ.symm a) : ℤ) : ZMod n) * Spec.coord x (σ.symm a)
  (f 0, f 1, f 2)

theorem coord_cubeMap (σ : Equiv.Perm (Fin 3)) (s : Fin 3 → ℤˣ) (x : Box n n n) (a : Fin 3) :
    Spec.coord (cubeMap σ s x) (σ a) = ((s a : ℤ) : ZMod n) * Spec.coord x a := by
  have : ∀ b, Spec.coord (cubeMap σ s x) b = ((s (σ.symm b) : ℤ) : ZMod n) * Spec.coord x (σ.symm b) := by
    intro b
    fin_cases b <;> rfl
  rw [this, Equiv.symm_apply_apply]

theorem unit_sq (u : ℤˣ) : ((u : ℤ) : ZMod n) * ((u : ℤ) : ZMod n) = 1 := by
  rw [← Int.cast_mul, ← Units.val_mul, Int.units_mul_self]; simp

theorem cubeMap_injective (σ : Equiv.Perm (Fin 3)) (s : Fin 3 → ℤˣ) : Function.Injective (cubeMap (n := n) σ s) := by
  intro x y h
  refine coord_inj (funext fun a => ?_)
  have h1 := coord_cubeMap σ s x a
  rw [h, coord_cubeMap] at h1
  have h2 := congrArg (fun z => ((s a : ℤ) : ZMod n) * z) h1
  simp only [← mul_assoc, unit_sq, one_mul] at h2
  exact h2.symm

theorem wave_cubeMap (σ : Equiv.Perm (Fin 3)) (s : Fin 3 → ℤˣ) (k x : Box n n n) :
    wave (cubeMap σ s k) (cubeMap σ s x) = wave k x := by
  rw [wave_coord, wave_coord, ← Equiv.prod_comp σ]
  refine Finset.prod_congr rfl fun a _ => ?_
  rw [coord_cubeMap, coord_cubeMap]
  have : ((s a : ℤ) : ZMod n) * Spec.coord k a * (((s a : ℤ) : ZMod n) * Spec.coord x a) = Spec.coord k a * Spec.coord x a := by
    linear_combination (Spec.coord k a * Spec.coord x a) * unit_sq (n := n) (s a)
  rw [this]

theorem freq_coord (L : ℝ) (k : Box n n n) (a : Fin 3) : (freqOf L L L k).vec a = 2 * Real.pi / L * fftIdx n (Spec.coord k a) := by
  fin_cases a <;> rfl

theorem freq_cubeMap (ho : Odd n) (σ : Equiv.Perm (Fin 3)) (s : Fin 3 → ℤˣ) (L : ℝ) (k : Box n n n) (a : Fin 3) :
    (freqOf L L L (cubeMap σ s k)).vec (σ a) = ((s a : ℤ) : ℝ) * (freqOf L L L k).vec a := by
  rw [freq_coord, freq_coord, coord_cubeMap]
  have hN : 2 * (Spec.coord k a).val ≠ n := by
    intro e
    rw [← e] at ho
    exact (Nat.not_odd_iff_even.2 (even_two_mul _)) ho
  rcases Int.units_eq_one_or (s a) with h | h
  · simp [h]
  · simp [h, fftIdx_neg hN]

theorem sq3_cube {v w : Fin 3 → ℝ} (σ : Equiv.Perm (Fin 3)) (s : Fin 3 → ℤˣ) (h : ∀ a, w (σ a) = ((s a : ℤ) : ℝ) * v a) :
    sq3 w = sq3 v := by
  have hs : ∀ v : Fin 3 → ℝ, sq3 v = ∑ a, v a ^ 2 := fun v => by simp [sq3, Fin.sum_univ_three]
  rw [hs, hs, ← Equiv.sum_comp σ]
  refine Finset.sum_congr rfl fun a _ => ?_
  rw [h, mul_pow]
  rcases Int.units_eq_one_or (s a) with h | h <;> simp [h]

theorem isoTensor_cube {v w : Fin 3 → ℝ} (σ : Equiv.Perm (Fin 3)) (s : Fin 3 → ℤˣ) (h : ∀ a, w (σ a) = ((s a : ℤ) : ℝ) * v a)
    (E : ℝ → ℝ) (i j : Fin 3) : isoTensor E w (σ i) (σ j) = ((s i : ℤ) : ℝ) * ((s j : ℤ) : ℝ) * isoTensor E v i j := by
  unfold isoTensor
  rw [sq3_cube σ s h, h, h]
  by_cases hij : i = j
  · subst hij
    rcases Int.units_eq_one_or (s i) with h | h <;> simp [h]
  · rw [if_neg hij, if_neg (fun e => hij (σ.injective e))]
    ring

/-- Spectral tensor of the von Karman kernel on the grid. -/
theorem vk_tensor_cube (ho : Odd n) {L E0 : ℝ} (hL : 0 < L) (hE : 0 ≤ E0) (σ : Equiv.Perm (Fin 3)) (s : Fin 3 → ℤˣ) (l : ℝ)
    (k : Box n n n) (i j : Fin 3) :
    let S : Box n n n → Matrix (Fin 3) (Fin 3) ℂ := spectrumOf (GenKernel.vk L E0).eval l l l
    (S (cubeMap σ s k) * (S (cubeMap σ s k)).conjTranspose) (σ i) (σ j) =
      (((s i : ℤ) : ℝ) : ℂ) * (((s j : ℤ) : ℝ) : ℂ) * (S k * (S k).conjTranspose) i j := by
  intro S
  have hv := freq_cubeMap ho σ s l k
  by_cases h0 : (freqOf l l l k).vec = 0
  · have h0' : (freqOf l l l (cubeMap σ s k)).vec = 0 := by
      funext b
      obtain ⟨a, rfl⟩ := σ.surjective b
      rw [hv, h0]; simp
    have e : ∀ (k : Box n n n), (freqOf l l l k).vec = 0 → S k = 0 := by
      intro k hk
      ext i j
      exact GenKernel.zero (K := .vk L E0) ⟨hL, hE⟩ hk i j
    rw [e _ h0, e _ h0']
    simp
  · have h0' : (freqOf l l l (cubeMap σ s k)).vec ≠ 0 := by
      intro h'
      apply h0
      funext a
      have := hv a
      rw [h'] at this
      rcases Int.units_eq_one_or (s a) with h | h <;> simp [h] at this <;> simp [this]
    have e : ∀ (k : Box n n n), (freqOf l l l k).vec ≠ 0 → S k * (S k).conjTranspose =
        (isoTensor (vkE L E0) (freqOf l l l k).vec).map (fun x : ℝ => (x : ℂ)) := fun k hk =>
      (C10_vk_kernel hL hE (freqOf l l l k)).2.2 hk
    rw [e _ h0, e _ h0']
    simp only [Matrix.map_apply]
    rw [isoTensor_cube σ s hv]
    push_cast
    ring

/-- **C117.**  The von Karman field on a cube with the same odd number of points in each direction is isotropic as far as the
grid allows: its two-point covariance is invariant under all symmetries of the cube, that is permutations `σ` of the axes with
reflections `s`, which map the component along axis `i` to the component along axis `σ i` with sign `s i`. -/
theorem C117_isotropic (ho : Odd n) (ξ : Box n n n → Fin 3 → Ω → ℝ) (hL2 : ∀ x l, MemLp (ξ x l) 2 μ) {h : ℝ} (hh : 0 < h)
    (hcov : ∀ x l y m, ∫ ω, ξ x l ω * ξ y m ω ∂μ = if x = y ∧ l = m then h * h * h else 0)
    {L E0 : ℝ} (hL : 0 < L) (hE : 0 ≤ E0) (σ : Equiv.Perm (Fin 3)) (s : Fin 3 → ℤˣ) {x y x' y' : Box n n n}
    (hx : ∀ a, Spec.coord x' (σ a) = ((s a : ℤ) : ZMod n) * Spec.coord x a)
    (hy : ∀ a, Spec.coord y' (σ a) = ((s a : ℤ) : ZMod n) * Spec.coord y a) (i j : Fin 3) :
    let u := fun ω => vfSample (spectrumOf (GenKernel.vk L E0).eval (h * n) (h * n) (h * n))
      (transformNorm (h * n) (h * n) (h * n)) fun z l => ξ z l ω
    ∫ ω, u ω x' (σ i) * u ω y' (σ j) ∂μ = ((s i : ℤ) : ℝ) * ((s j : ℤ) : ℝ) * ∫ ω, u ω x i * u ω y j ∂μ := by
  intro u
  have hK : (GenKernel.vk L E0).Valid := ⟨hL, hE⟩
  have h1 := C81_generator ξ hL2 hh hh hh hcov ho ho ho hK x y i j
  have h2 := C81_generator ξ hL2 hh hh hh hcov ho ho ho hK x' y' (σ i) (σ j)
  have hsub : x' - y' = cubeMap σ s (x - y) := by
    refine coord_inj (funext fun b => ?_)
    obtain ⟨a, rfl⟩ := σ.surjective b
    have hs : ∀ (p q : Box n n n) (a : Fin 3), Spec.coord (p - q) a = Spec.coord p a - Spec.coord q a := by
      intro p q a
      fin_cases a <;> rfl
    rw [coord_cubeMap, hs, hs, hx, hy]
    ring
  simp only at h1 h2
  have : ((∫ ω, u ω x' (σ i) * u ω y' (σ j) ∂μ : ℝ) : ℂ) =
      ((((s i : ℤ) : ℝ) * ((s j : ℤ) : ℝ) * ∫ ω, u ω x i * u ω y j ∂μ : ℝ) : ℂ) := by
    push_cast
    refine h2.trans (Eq.trans ?_ (congrArg _ h1).symm)
    rw [hsub, ← Function.Bijective.sum_comp (Finite.injective_iff_bijective.1 (cubeMap_injective (n := n) σ s)), mul_left_comm]
    congr 1
    rw [Finset.mul_sum]
    refine Finset.sum_congr rfl fun k _ => ?_
    rw [wave_cubeMap, vk_tensor_cube ho hL hE σ s]
    push_cast
    ring
  exact_mod_cast this

/-- **C117.**  In particular the three components have the same variance and are uncorrelated at each point. -/
theorem C117_one_point (ho : Odd n) (ξ : Box n n n → Fin 3 → Ω → ℝ) (hL2 : ∀ x l, MemLp (ξ x l) 2 μ) {h : ℝ} (hh : 0 < h)
    (hcov : ∀ x l y m, ∫ ω, ξ x l ω * ξ y m ω ∂μ = if x = y ∧ l = m then h * h * h else 0)
    {L E0 : ℝ} (hL : 0 < L) (hE : 0 ≤ E0) :
    let u := fun ω => vfSample (spectrumOf (GenKernel.vk L E0).eval (h * n) (h * n) (h * n))
      (transformNorm (h * n) (h * n) (h * n)) fun z l => ξ z l ω
    ∃ v : ℝ, ∀ (x : Box n n n) (i j : Fin 3), ∫ ω, u ω x i * u ω x j ∂μ = if i = j then v else 0 := by
  intro u
  have hst : ∀ (x : Box n n n) (i j : Fin 3), ∫ ω, u ω x i * u ω x j ∂μ = ∫ ω, u ω 0 i * u ω 0 j ∂μ := by
    intro x i j
    have := C81_stationary ξ hL2 (h * h * h) hcov (spectrumOf (GenKernel.vk L E0).eval (h * n) (h * n) (h * n))
      (transformNorm (h * n) (h * n) (h * n)) 0 0 x i j
    rwa [zero_add] at this
  have h00 : ∀ a, Spec.coord (0 : Box n n n) a = 0 := fun a => by fin_cases a <;> rfl
  have hsym := fun σ s i j => C117_isotropic ho ξ hL2 hh hcov hL hE σ s (x := 0) (y := 0) (x' := 0) (y' := 0)
    (fun a => by rw [h00, h00, mul_zero]) (fun a => by rw [h00, h00, mul_zero]) i j
  refine ⟨∫ ω, u ω 0 0 * u ω 0 0 ∂μ, fun x i j => ?_⟩
  rw [hst]
  by_cases hij : i = j
  · subst hij
    rw [if_pos rfl]
    have := hsym (Equiv.swap 0 i) 1 0 0
    simpa using this
  · rw [if_neg hij]
    have := hsym 1 (Function.update 1 i (-1)) i j
    simp only [Equiv.Perm.coe_one, id, Function.update_self, Function.update_of_ne (Ne.symm hij), Pi.one_apply, Units.val_one,
      Int.cast_one, mul_one, Units.val_neg, Int.cast_neg, neg_mul, one_mul] at this
    exact self_eq_neg.1 this

/-- A symmetry and points meeting the hypotheses of `C117_isotropic` on the grid of `3 x 3 x 3` points: the rotation by a right
angle about the third axis; white noise exists for every cell volume. -/
example : (∃ ξ : Box 3 3 3 → Fin 3 → (Box 3 3 3 × Fin 3 → ℝ) → ℝ, WhiteNoise (stdNormal _) (2 * 2 * 2) ξ) ∧
    ∃ (σ : Equiv.Perm (Fin 3)) (s : Fin 3 → ℤˣ) (x x' : Box 3 3 3), σ ≠ 1 ∧ s ≠ 1 ∧ x ≠ x' ∧
      ∀ a, Spec.coord x' (σ a) = ((s a : ℤ) : ZMod 3) * Spec.coord x a := by
  refine ⟨⟨fun x l ω => Real.sqrt (2 * 2 * 2) * ω (x, l), fun x l => stdNormal_memLp _ _, fun x l y m => ?_⟩, Equiv.swap 0 1, ![1, -1, 1], (1, 1, 2), (-1, 1, 2), ?_, ?_, ?_, ?_⟩
  · rw [stdNormal_cov, Real.sq_sqrt (by positivity)]
    simp
  · intro h
    have := congrArg (fun e : Equiv.Perm (Fin 3) => e 0) h
    simp at this
  · intro h
    have := congrFun h 1
    revert this
    decide
  · decide
  · intro a
    fin_cases a <;> decide

end
end
end Verif
