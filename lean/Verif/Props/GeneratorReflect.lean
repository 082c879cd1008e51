import Verif.Props.GeneratorMirror
import Verif.Props.Covariance

/-!
# Reversed axes (C123)

Statistics of a block of the generated turbulence when some of the three axes are reversed: all three together for every
covariance (one point is as good as the opposite one), any of them for the isotropic covariance.
-/

namespace Verif
open Fl

noncomputable section
open Classical MeasureTheory ProbabilityTheory Filter Topology

/-- Factor of component `i` when the axes marked by `φ` are reversed. -/
def Spec.turn (φ : Fin 3 → Bool) (i : Fin 3) : ℝ := if φ i then -1 else 1

theorem turn_sq (φ : Fin 3 → Bool) (i : Fin 3) : Spec.turn φ i * Spec.turn φ i = 1 := by unfold Spec.turn; split_ifs <;> norm_num

theorem turn_abs (φ : Fin 3 → Bool) (i : Fin 3) : Spec.turn φ i = 1 ∨ Spec.turn φ i = -1 := by
  unfold Spec.turn; split_ifs <;> simp

/-- Orientation: the product of the three signs. -/
def Spec.orient (φ : Fin 3 → Bool) : ℝ := Spec.turn φ 0 * Spec.turn φ 1 * Spec.turn φ 2

theorem orient_sq (φ : Fin 3 → Bool) : Spec.orient φ * Spec.orient φ = 1 := by
  unfold Spec.orient
  linear_combination (Spec.turn φ 1 * Spec.turn φ 1 * (Spec.turn φ 2 * Spec.turn φ 2)) * turn_sq φ 0 +
    (Spec.turn φ 2 * Spec.turn φ 2) * turn_sq φ 1 + turn_sq φ 2

theorem orient_abs (φ : Fin 3 → Bool) : Spec.orient φ = 1 ∨ Spec.orient φ = -1 := by
  have := orient_sq φ
  rcases mul_self_eq_one_iff.1 this with h | h <;> simp [h]

section
variable {n1 n2 n3 : ℕ} [NeZero n1] [NeZero n2] [NeZero n3]

/-- Reversal of the marked axes. -/
def Box.rev (φ : Fin 3 → Bool) (x : Box n1 n2 n3) : Box n1 n2 n3 :=
  (if φ 0 then -x.1 else x.1, if φ 1 then -x.2.1 else x.2.1, if φ 2 then -x.2.2 else x.2.2)

theorem rev_rev (φ : Fin 3 → Bool) (x : Box n1 n2 n3) : (x.rev φ).rev φ = x := by
  refine Prod.ext ?_ (Prod.ext ?_ ?_) <;> simp only [Box.rev] <;> split_ifs <;> simp

theorem rev_add (φ : Fin 3 → Bool) (x y : Box n1 n2 n3) : (x + y).rev φ = x.rev φ + y.rev φ := by
  refine Prod.ext ?_ (Prod.ext ?_ ?_) <;> simp only [Box.rev, Prod.fst_add, Prod.snd_add] <;> split_ifs <;>
    simp [add_comm]

theorem rev_neg (φ : Fin 3 → Bool) (x : Box n1 n2 n3) : (-x).rev φ = -x.rev φ := by
  refine Prod.ext ?_ (Prod.ext ?_ ?_) <;> simp only [Box.rev, Prod.fst_neg, Prod.snd_neg] <;> split_ifs <;> simp

theorem rev_sub (φ : Fin 3 → Bool) (x y : Box n1 n2 n3) : (x - y).rev φ = x.rev φ - y.rev φ := by
  rw [sub_eq_add_neg, rev_add, rev_neg, ← sub_eq_add_neg]

/-- The response of the sampler is a pseudo-tensor under the reversal of the marked axes. -/
def Pseudo (R : Box n1 n2 n3 → Fin 3 → Fin 3 → ℝ) (φ : Fin 3 → Bool) : Prop :=
  ∀ d i l, R (d.rev φ) i l = Spec.orient φ * (Spec.turn φ i * Spec.turn φ l) * R d i l

/-- The axes marked once. -/
def xorAxes (φ ψ : Fin 3 → Bool) (i : Fin 3) : Bool := xor (φ i) (ψ i)

theorem turn_xor (φ ψ : Fin 3 → Bool) (i : Fin 3) : Spec.turn (xorAxes φ ψ) i = Spec.turn φ i * Spec.turn ψ i := by
  unfold Spec.turn xorAxes
  cases φ i <;> cases ψ i <;> simp

theorem rev_xor (φ ψ : Fin 3 → Bool) (x : Box n1 n2 n3) : x.rev (xorAxes φ ψ) = (x.rev ψ).rev φ := by
  unfold Box.rev xorAxes
  refine Prod.ext ?_ (Prod.ext ?_ ?_) <;> simp only
  · cases φ 0 <;> cases ψ 0 <;> simp
  · cases φ 1 <;> cases ψ 1 <;> simp
  · cases φ 2 <;> cases ψ 2 <;> simp

theorem Pseudo.comp {R : Box n1 n2 n3 → Fin 3 → Fin 3 → ℝ} {φ ψ : Fin 3 → Bool} (h : Pseudo R φ) (h' : Pseudo R ψ) :
    Pseudo R (xorAxes φ ψ) := by
  intro d i l
  rw [rev_xor, h, h']
  unfold Spec.orient
  simp only [turn_xor]
  ring

/-- Imaginary spectral square roots have an odd response. -/
theorem response_point {S : Box n1 n2 n3 → Matrix (Fin 3) (Fin 3) ℂ} (hS : ∀ k i l, (S k i l).re = 0) (norm : ℝ) :
    Pseudo (Spec.response S norm) fun _ => true := by
  intro d i l
  have e1 : Spec.orient (fun _ => true) * (Spec.turn (fun _ => true) i * Spec.turn (fun _ => true) l) = -1 := by
    simp [Spec.orient, Spec.turn]
  have e2 : d.rev (fun _ => true) = -d := rfl
  rw [e1, e2]
  unfold Spec.response
  rw [vfSample_eq, vfSample_eq, neg_one_mul, ← neg_div]
  congr 1
  unfold irfftn
  rw [← mul_neg, ← Finset.sum_neg_distrib]
  congr 1
  refine Finset.sum_congr rfl fun k _ => ?_
  have hre : (vfY S (fun y l' => if y = 0 ∧ l' = l then 1 else 0) i k).re = 0 := by
    unfold vfY
    rw [Complex.re_sum]
    refine Finset.sum_eq_zero fun m _ => ?_
    have hn : (noiseHat (fun (y : Box n1 n2 n3) (l' : Fin 3) => if y = 0 ∧ l' = l then (1 : ℝ) else 0) m k).im = 0 := by
      unfold noiseHat fftn
      rw [Complex.im_sum]
      refine Finset.sum_eq_zero fun y _ => ?_
      by_cases hy : y = 0
      · subst hy
        by_cases hm : m = l <;> simp [hm]
      · simp [hy]
    unfold spectrumHalf
    simp [Complex.mul_re, Complex.mul_im, hn, hS]
  have hw : (wave k (-d)).im = -(wave k d).im := by
    rw [← wave_neg_left, ← wave_conj, Complex.conj_im]
  split_ifs
  · rw [Complex.mul_re, Complex.mul_re, hre, hw]
    ring
  · simp

theorem wave_rev (φ : Fin 3 → Bool) (k x : Box n1 n2 n3) : wave (k.rev φ) x = wave k (x.rev φ) := by
  unfold wave Box.rev
  simp only
  split_ifs <;> simp

/-- The reversal as a permutation of the box. -/
def revEquiv (φ : Fin 3 → Bool) : Box n1 n2 n3 ≃ Box n1 n2 n3 := ⟨Box.rev φ, Box.rev φ, rev_rev φ, rev_rev φ⟩

/-- A Hermitian spectral square root that is a pseudo-tensor has a response that is one. -/
theorem response_pseudo {S : Box n1 n2 n3 → Matrix (Fin 3) (Fin 3) ℂ} {φ : Fin 3 → Bool}
    (hH : ∀ k, S (-k) = (S k).map (starRingEnd ℂ))
    (hS : ∀ k i l, S (k.rev φ) i l = (Spec.orient φ * (Spec.turn φ i * Spec.turn φ l) : ℝ) * S k i l) (norm : ℝ) :
    Pseudo (Spec.response S norm) φ := by
  intro d i l
  obtain ⟨e, he⟩ : ∃ e, e = Spec.orient φ * (Spec.turn φ i * Spec.turn φ l) := ⟨_, rfl⟩
  unfold Spec.response
  rw [vfSample_eq, vfSample_eq, ← he, ← mul_div_assoc]
  congr 1
  have hY : ∀ k, vfY S (fun y l' => if y = 0 ∧ l' = l then (1 : ℝ) else 0) i k = S k i l * (Real.sqrt (voxels n1 n2 n3) : ℂ) := by
    intro k
    unfold vfY
    have hn : ∀ m, noiseHat (fun (y : Box n1 n2 n3) (l' : Fin 3) => if y = 0 ∧ l' = l then (1 : ℝ) else 0) m k =
        if m = l then 1 else 0 := by
      intro m
      unfold noiseHat fftn
      rw [Finset.sum_eq_single 0]
      · by_cases hm : m = l <;> simp [hm]
      · intro y _ hy; simp [hy]
      · intro h; exact absurd (Finset.mem_univ _) h
    simp only [hn, mul_ite, mul_one, mul_zero]
    rw [Finset.sum_ite_eq' Finset.univ l]
    simp [spectrumHalf]
  have hrev : ∀ k, vfY S (fun y l' => if y = 0 ∧ l' = l then (1 : ℝ) else 0) i (k.rev φ) =
      (e : ℂ) * vfY S (fun y l' => if y = 0 ∧ l' = l then (1 : ℝ) else 0) i k := by
    intro k
    rw [hY, hY, hS, he]
    push_cast
    ring
  have hneg : ∀ k, herm (vfY S (fun y l' => if y = 0 ∧ l' = l then (1 : ℝ) else 0) i) k =
      vfY S (fun y l' => if y = 0 ∧ l' = l then (1 : ℝ) else 0) i k := fun k => herm_of_hermitian (vfY_neg (hH k) _ i)
  obtain ⟨Y, hYd⟩ : ∃ Y, Y = vfY S (fun y l' => if y = 0 ∧ l' = l then (1 : ℝ) else 0) i := ⟨_, rfl⟩
  rw [← hYd] at hrev hneg ⊢
  have h : ((irfftn Y (d.rev φ) : ℝ) : ℂ) = ((e * irfftn Y d : ℝ) : ℂ) := by
    push_cast
    rw [irfftn_eq, irfftn_eq]
    unfold ifftn
    rw [mul_left_comm]
    congr 1
    rw [Finset.mul_sum]
    refine ((revEquiv φ).sum_comp (fun k => herm Y k * wave k (d.rev φ))).symm.trans (Finset.sum_congr rfl fun k _ => ?_)
    change herm Y (k.rev φ) * wave (k.rev φ) (d.rev φ) = _
    rw [hneg, hneg, hrev, wave_rev, rev_rev, mul_assoc]
  exact_mod_cast h

/-- The lateral reversal alone. -/
def lateral : Fin 3 → Bool := fun i => i == 1

theorem response_lateral {S : Box n1 n2 n3 → Matrix (Fin 3) (Fin 3) ℂ}
    (hS : ∀ k i l, S k.mir i l = -(Spec.side i * Spec.side l : ℝ) * S k i l) (norm : ℝ) :
    Pseudo (Spec.response S norm) lateral := by
  intro d i l
  have hm : ∀ y : Box n1 n2 n3, y.mir = 0 ↔ y = 0 := by
    intro y
    constructor
    · intro h; rw [← mir_mir y, h]; simp [Box.mir]
    · rintro rfl; simp [Box.mir]
  have h := vfSample_mir hS norm (fun y l' => if y = 0 ∧ l' = l then (1 : ℝ) else 0) d i
  have e : (fun (y : Box n1 n2 n3) (l' : Fin 3) => -Spec.side l' * if y.mir = 0 ∧ l' = l then (1 : ℝ) else 0) =
      fun y l' => (-Spec.side l) * (if y = 0 ∧ l' = l then (1 : ℝ) else 0) + 0 * 0 := by
    funext y l'
    simp only [hm]
    split_ifs with h
    · rw [h.2]; ring
    · ring
  have e2 : d.rev lateral = d.mir := rfl
  have e3 : Spec.orient lateral = -1 := by simp [Spec.orient, Spec.turn, lateral]
  have e4 : ∀ i, Spec.turn lateral i = Spec.side i := by
    intro i; fin_cases i <;> simp [Spec.turn, lateral, Spec.side]
  have hlin := C61_linear S norm (-Spec.side l) 0 (fun y l' => if y = 0 ∧ l' = l then (1 : ℝ) else 0) (fun _ _ => 0) d i
  rw [e2, e3, e4, e4]
  unfold Spec.response
  rw [e] at h
  rw [hlin] at h
  have hsq := side_sq i
  linear_combination (-Spec.side i) * h - (vfSample S norm (fun y l' => if y = 0 ∧ l' = l then (1 : ℝ) else 0) d.mir i) * hsq
end

/-! ### The covariances -/

theorem freqOf_rev {n1 n2 n3 : ℕ} [NeZero n1] [NeZero n2] [NeZero n3] (h1 : Odd n1) (h2 : Odd n2) (h3 : Odd n3)
    (φ : Fin 3 → Bool) (L1 L2 L3 : ℝ) (k : Box n1 n2 n3) :
    freqOf L1 L2 L3 (k.rev φ) = ⟨Spec.turn φ 0 * (freqOf L1 L2 L3 k).k1, Spec.turn φ 1 * (freqOf L1 L2 L3 k).k2,
      Spec.turn φ 2 * (freqOf L1 L2 L3 k).k3⟩ := by
  have hne : ∀ {n : ℕ} [NeZero n], Odd n → ∀ j : ZMod n, fftIdx n (-j) = -fftIdx n j := by
    intro n _ hn j
    refine fftIdx_neg fun e => ?_
    rw [← e] at hn
    exact (Nat.not_odd_iff_even.2 (even_two_mul _)) hn
  unfold freqOf Box.rev Spec.turn
  simp only [K3.mk.injEq]
  refine ⟨?_, ?_, ?_⟩ <;> split_ifs <;> simp [hne h1, hne h2, hne h3]

theorem vk_rev {L E0 : ℝ} (h : (GenKernel.vk L E0).Valid) (φ : Fin 3 → Bool) (k : K3) (i j : Fin 3) :
    times1j ((GenKernel.vk L E0).eval ⟨Spec.turn φ 0 * k.k1, Spec.turn φ 1 * k.k2, Spec.turn φ 2 * k.k3⟩) i j =
      (Spec.orient φ * (Spec.turn φ i * Spec.turn φ j) : ℝ) * times1j ((GenKernel.vk L E0).eval k) i j := by
  obtain ⟨k', hk'⟩ : ∃ k' : K3, k' = ⟨Spec.turn φ 0 * k.k1, Spec.turn φ 1 * k.k2, Spec.turn φ 2 * k.k3⟩ := ⟨_, rfl⟩
  rw [← hk']
  have hkk : kkR k' = kkR k := by
    rw [hk']
    unfold kkR
    linear_combination (k.k1 ^ 2) * turn_sq φ 0 + (k.k2 ^ 2) * turn_sq φ 1 + (k.k3 ^ 2) * turn_sq φ 2
  have hr : ((GenKernel.vk L E0).eval k' i j).toReal =
      Spec.orient φ * (Spec.turn φ i * Spec.turn φ j) * ((GenKernel.vk L E0).eval k i j).toReal := by
    have hc := kernelConst_fin h.1 h.2 (kkR_nonneg k)
    simp only [GenKernel.eval, vkKernel, kkR_pow, hkk, hc]
    rw [hk']
    unfold Spec.orient Spec.turn
    cases h0 : φ 0 <;> cases h1 : φ 1 <;> cases h2 : φ 2 <;> fin_cases i <;> fin_cases j <;> simp [crossMat, h0, h1, h2]
  unfold times1j
  simp only [hr]
  push_cast
  ring

/-! ### The generator -/

section
variable {g : Gen}

/-- The covariances for which the axes marked by `φ` may be reversed. -/
def Gen.Reversible (g : Gen) (φ : Fin 3 → Bool) : Prop :=
  φ 0 = φ 2 ∨ ((∃ L E0, g.kernel = .vk L E0) ∧ Odd g.shape1.toNat ∧ 0 < g.l3)

theorem Gen.odd_shape3 (hg : g.Good) (hl : 0 < g.l3) : Odd g.shape3.toNat := by
  obtain ⟨-, -, e3, -⟩ := hg.shapes
  have h : Odd (g.Nz : ℤ) := by
    unfold Gen.Nz
    push_cast
    refine Even.add_one (Even.pow_of_ne_zero even_two ?_)
    omega
  have : Odd ((g.shape3.toNat : ℕ) : ℤ) := by
    rw [e3]
    exact h.add_even (even_two_mul _)
  exact_mod_cast this

theorem times1j_re (A : Matrix (Fin 3) (Fin 3) Fl) (i j : Fin 3) : (times1j A i j).re = 0 := by
  unfold times1j; simp

theorem gen_pseudo (hg : g.Good) (hl : 0 < g.l2) (hK : g.kernel.Valid) {φ : Fin 3 → Bool} (hφ : g.Reversible φ)
    [NeZero g.shape1.toNat] [NeZero g.shape2.toNat] [NeZero g.shape3.toNat] : Pseudo g.response φ := by
  have h2 := Gen.odd_shape2 hg hl
  have hpoint : Pseudo g.response fun _ => true := response_point (fun k i l => times1j_re _ i l) _
  have hlat : Pseudo g.response lateral := by
    refine response_lateral (fun k i l => ?_) _
    unfold Gen.root spectrumOf
    rw [freqOf_mir h2, eval_mirror hK]
  rcases hφ with h | ⟨⟨L, E0, hk⟩, h1, hl3⟩
  · have hnone : Pseudo g.response fun _ => false := by
      intro d i l
      have : d.rev (fun _ => false) = d := rfl
      rw [this]
      simp [Spec.orient, Spec.turn]
    rcases hb0 : φ 0 <;> rcases hb1 : φ 1
    · convert hnone using 1
      funext i; fin_cases i <;> simp [← h, hb0, hb1]
    · convert hlat using 1
      funext i; fin_cases i <;> simp [← h, hb0, hb1, lateral]
    · convert hpoint.comp hlat using 1
      funext i; fin_cases i <;> simp [← h, hb0, hb1, lateral, xorAxes]
    · convert hpoint using 1
      funext i; fin_cases i <;> simp [← h, hb0, hb1]
  · have h3 := Gen.odd_shape3 hg hl3
    refine response_pseudo (fun k => spectrum_hermitian hK (nonNyquist_of_odd h1 h2 h3 k)) (fun k i l => ?_) _
    unfold spectrumOf
    rw [hk] at hK ⊢
    rw [freqOf_rev h1 h2 h3, vk_rev hK]

/-- The cell with the marked axes reversed. -/
def Gen.turned (φ : Fin 3 → Bool) (x : g.Cell) : g.Cell :=
  (if φ 0 then x.1.rev else x.1, if φ 1 then x.2.1.rev else x.2.1, if φ 2 then x.2.2.1.rev else x.2.2.1, x.2.2.2)

theorem turned_turned (φ : Fin 3 → Bool) (x : g.Cell) : Gen.turned φ (Gen.turned φ x) = x := by
  refine Prod.ext ?_ (Prod.ext ?_ (Prod.ext ?_ rfl)) <;> simp only [Gen.turned] <;> split_ifs <;> simp

/-- Position of a cell in the periodic box. -/
def Gen.spot (x : g.Cell) : Box g.shape1.toNat g.shape2.toNat g.shape3.toNat :=
  (((g.nb.toNat + x.1 : ℕ) : ZMod _), ((g.my.toNat + x.2.1 : ℕ) : ZMod _), ((x.2.2.1 : ℕ) : ZMod _))

/-- Shift that brings the reversed positions back to the positions of the cells. -/
def Gen.back (g : Gen) (φ : Fin 3 → Bool) : Box g.shape1.toNat g.shape2.toNat g.shape3.toNat :=
  (if φ 0 then ((2 * g.nb.toNat + (g.Nx - 1) : ℕ) : ZMod _) else 0, if φ 1 then ((2 * g.my.toNat + (g.Ny - 1) : ℕ) : ZMod _) else 0,
    if φ 2 then ((g.Nz - 1 : ℕ) : ZMod _) else 0)

theorem spot_turned (φ : Fin 3 → Bool) (x : g.Cell) : Gen.spot (Gen.turned φ x) = (Gen.spot x).rev φ + g.back φ := by
  have key : ∀ {n m : ℕ} (a : ℕ) (r : Fin m), ((a + r.rev : ℕ) : ZMod n) = -((a + r : ℕ) : ZMod n) + ((2 * a + (m - 1) : ℕ) : ZMod n) := by
    intro n m a r
    have : a + r.rev + (a + r) = 2 * a + (m - 1) := by rw [Fin.val_rev]; omega
    rw [← this]
    push_cast
    ring
  obtain ⟨r, b, c, k⟩ := x
  refine Prod.ext ?_ (Prod.ext ?_ ?_) <;>
    simp only [Gen.spot, Gen.turned, Gen.back, Box.rev, Prod.fst_add, Prod.snd_add] <;> split_ifs
  · exact key _ r
  · simp
  · exact key _ b
  · simp
  · have := key (n := g.shape3.toNat) 0 c
    simpa using this
  · simp

/-- The noise of a window with the marked axes reversed. -/
def Gen.swap (g : Gen) (φ : Fin 3 → Bool) [NeZero g.shape1.toNat] [NeZero g.shape2.toNat] [NeZero g.shape3.toNat] :
    Equiv.Perm (Box g.shape1.toNat g.shape2.toNat g.shape3.toNat × Fin 3) :=
  ((revEquiv φ).trans (Equiv.addRight (g.back φ))).prodCongr (Equiv.refl _)

/-- The corresponding permutation of the random stream, for the window of block `j`. -/
def Gen.swapPlaces (hg : g.Good) (φ : Fin 3 → Bool) (j : ℕ) [NeZero g.shape1.toNat] [NeZero g.shape2.toNat]
    [NeZero g.shape3.toNat] : Equiv.Perm ℕ :=
  (g.swap φ).extendDomain (Equiv.ofInjective _ (Gen.place_inj hg j))

theorem swapPlaces_place (hg : g.Good) (φ : Fin 3 → Bool) (j : ℕ) [NeZero g.shape1.toNat] [NeZero g.shape2.toNat]
    [NeZero g.shape3.toNat] (w : Box g.shape1.toNat g.shape2.toNat g.shape3.toNat × Fin 3) :
    Gen.swapPlaces hg φ j (g.place j w) = g.place j (g.swap φ w) := by
  exact (g.swap φ).extendDomain_apply_image (Equiv.ofInjective _ (Gen.place_inj hg j)) w

/-- The stream of the reversed noise. -/
def Gen.swapStream (hg : g.Good) (φ : Fin 3 → Bool) (j : ℕ) [NeZero g.shape1.toNat] [NeZero g.shape2.toNat]
    [NeZero g.shape3.toNat] (γ : ℕ → ℝ) (n : ℕ) : ℝ :=
  Spec.orient φ * Spec.turn φ (Fin.ofNat 3 n) * γ (Gen.swapPlaces hg φ j n)

/-- Reversing the noise reverses the block. -/
theorem raw_rev (hg : g.Good) (hl : 0 < g.l2) (hK : g.kernel.Valid) {φ : Fin 3 → Bool} (hφ : g.Reversible φ)
    [NeZero g.shape1.toNat] [NeZero g.shape2.toNat] [NeZero g.shape3.toNat] (γ : ℕ → ℝ) (j : ℕ) (x : g.Cell) :
    g.raw (Gen.swapStream hg φ j γ) j x = Spec.turn φ x.2.2.2 * g.raw γ j (Gen.turned φ x) := by
  have hR := gen_pseudo hg hl hK hφ
  have hraw : ∀ γ (x : g.Cell), g.raw γ j x = ∑ w, g.response (Gen.spot x - w.1) x.2.2.2 w.2 * (γ (g.place j w) * g.rf.noiseStd) := by
    intro γ x
    rw [← periodic_eq]
    exact raw_periodic hg γ j x.1 x.2.1 x.2.2.1 x.2.2.2
  rw [hraw, hraw, Finset.mul_sum, ← Equiv.sum_comp (g.swap φ) fun w => Spec.turn φ x.2.2.2 *
    (g.response (Gen.spot (Gen.turned φ x) - w.1) (Gen.turned φ x).2.2.2 w.2 * (γ (g.place j w) * g.rf.noiseStd))]
  refine Finset.sum_congr rfl fun w _ => ?_
  have h1 : Gen.swapStream hg φ j γ (g.place j w) = Spec.orient φ * Spec.turn φ w.2 * γ (g.place j (g.swap φ w)) := by
    unfold Gen.swapStream
    rw [swapPlaces_place]
    congr 3
    apply Fin.ext
    simp only [Fin.ofNat]
    exact (digits_div w.2.isLt).2
  have h2 : Gen.spot (Gen.turned φ x) - (g.swap φ w).1 = (Gen.spot x - w.1).rev φ := by
    rw [spot_turned, rev_sub]
    change _ - (w.1.rev φ + g.back φ) = _
    abel
  have h3 : (g.swap φ w).2 = w.2 := rfl
  have h4 : (Gen.turned φ x).2.2.2 = x.2.2.2 := rfl
  rw [h1, h2, h3, hR, h4]
  change _ = Spec.turn φ x.2.2.2 * (Spec.orient φ * (Spec.turn φ x.2.2.2 * Spec.turn φ w.2) * _ * _)
  linear_combination (-(Spec.orient φ * Spec.turn φ w.2 * g.response (Gen.spot x - w.1) x.2.2.2 w.2 *
    (γ (g.place j (g.swap φ w)) * g.rf.noiseStd))) * turn_sq φ x.2.2.2

theorem fluct_rev (hg : g.Good) (hl : 0 < g.l2) (hK : g.kernel.Valid) {φ : Fin 3 → Bool} (hφ : g.Reversible φ)
    [NeZero g.shape1.toNat] [NeZero g.shape2.toNat] [NeZero g.shape3.toNat] (γ : ℕ → ℝ) (j : ℕ) (x : g.Cell) :
    g.fluct (Gen.swapStream hg φ j γ) j x = Spec.turn φ x.2.2.2 * g.fluct γ j (Gen.turned φ x) := by
  have hsum : ∑ x : g.Cell, g.raw (Gen.swapStream hg φ j γ) j x ^ 2 = ∑ x : g.Cell, g.raw γ j x ^ 2 := by
    rw [← (⟨Gen.turned φ, Gen.turned φ, turned_turned φ, turned_turned φ⟩ : g.Cell ≃ g.Cell).sum_comp fun x => g.raw γ j x ^ 2]
    refine Finset.sum_congr rfl fun x _ => ?_
    rw [raw_rev hg hl hK hφ, mul_pow, pow_two (Spec.turn φ _), turn_sq, one_mul]
    rfl
  unfold Gen.fluct
  rw [sd_cells, sd_cells, hsum, raw_rev hg hl hK hφ, mul_div_assoc]

variable {Ω : Type} [MeasurableSpace Ω] {μ : Measure Ω} [IsProbabilityMeasure μ] {ξ : ℕ → Ω → ℝ} {ν : Measure ℝ}

theorem Spec.Stream.swap (hg : g.Good) (φ : Fin 3 → Bool) (j : ℕ) [NeZero g.shape1.toNat] [NeZero g.shape2.toNat]
    [NeZero g.shape3.toNat] (h : Spec.Stream μ ξ ν) (hs : ν.map (fun x => -x) = ν) :
    Spec.Stream μ (fun n ω => Gen.swapStream hg φ j (fun n => ξ n ω) n) ν := by
  have hm : ∀ c : ℝ, Measurable fun x : ℝ => c * x := fun c => measurable_const_mul c
  refine ⟨fun n => (h.1 _).const_mul _, (h.2.1.precomp (Gen.swapPlaces hg φ j).injective).comp
    (fun n x => Spec.orient φ * Spec.turn φ (Fin.ofNat 3 n) * x) fun n => hm _, fun n => ?_⟩
  have e : μ.map (fun ω => Gen.swapStream hg φ j (fun n => ξ n ω) n) =
      ν.map fun x => Spec.orient φ * Spec.turn φ (Fin.ofNat 3 n) * x := by
    rw [← h.2.2 (Gen.swapPlaces hg φ j n), Measure.map_map (hm _) (h.1 _)]
    rfl
  rw [e]
  rcases orient_abs φ with h1 | h1 <;> rcases turn_abs φ (Fin.ofNat 3 n) with h2 | h2 <;> rw [h1, h2] <;> norm_num
  · exact hs
  · exact hs

theorem fluct_rev_law (hg : g.Good) (hl : 0 < g.l2) (hK : g.kernel.Valid) {φ : Fin 3 → Bool} (hφ : g.Reversible φ)
    (h : Spec.Stream μ ξ ν) (hs : ν.map (fun x => -x) = ν) (j : ℕ) :
    IdentDistrib (fun ω => g.fluct (fun n => ξ n ω) j)
      (fun ω (x : g.Cell) => Spec.turn φ x.2.2.2 * g.fluct (fun n => ξ n ω) j (Gen.turned φ x)) μ μ := by
  obtain ⟨-, -, -, p1, p2, p3, -⟩ := hg.shapes
  have : NeZero g.shape1.toNat := ⟨p1.ne'⟩
  have : NeZero g.shape2.toNat := ⟨p2.ne'⟩
  have : NeZero g.shape3.toNat := ⟨p3.ne'⟩
  have := (h.identDistrib (h.swap hg φ j hs)).comp ((measurable_pi_apply j).comp (fluct_seq_measurable hg))
  have e : (fun ω (x : g.Cell) => Spec.turn φ x.2.2.2 * g.fluct (fun n => ξ n ω) j (Gen.turned φ x)) =
      (fun γ => g.fluct γ j) ∘ fun ω n => Gen.swapStream hg φ j (fun n => ξ n ω) n := by
    funext ω x
    exact (fluct_rev hg hl hK hφ _ j x).symm
  rw [e]
  exact this

/-! ### C123 -/

/-- Position along an axis of `n` points, counted from the other end if `b`. -/
def Spec.fromEnd (b : Bool) (n i : ℕ) : ℕ := if b then n - 1 - i else i

/-- The axes `φ` may be reversed: the first and the third together or not at all, or any of them for the von Karman
covariance on a grid of more than two points each way with a number of blended planes that is odd or not positive. -/
def Spec.MayReverse (a : GenArgs) (φ : Fin 3 → Bool) : Prop :=
  φ 0 = φ 2 ∨ (a.model = "VK" ∧ (a.bn ≤ 0 ∨ Odd a.bn) ∧ 0 < a.l1 ∧ 0 < a.l3)

theorem genScales_vk {env : GenEnv} {a : GenArgs} {K : GenKernel} {L T : ℝ} (hm : a.model = "VK")
    (h : genScales env a = .ok (K, L, T)) : ∃ L E0, K = .vk L E0 := by
  unfold genScales at h
  rw [if_neg (by rw [hm]; decide), if_neg (by rw [hm]; decide)] at h
  split at h
  · split at h
    · cases h
    · simp only [hm, if_true] at h
      injection h with h
      injection h with h _
      exact ⟨_, _, h.symm⟩
  · cases h

theorem mayReverse_gen {env : GenEnv} {a : GenArgs} (hp : a.PosScales) {q : ℕ} (hinit : genInit env a = (.ok g, q))
    {φ : Fin 3 → Bool} (h : Spec.MayReverse a φ) : g.Reversible φ := by
  have hg := genInit_good hp hinit
  obtain ⟨K, L, T, hs, hf, hl', -, ⟨l1, l2, l3⟩, -, ⟨hbn, -⟩, hk, -⟩ := genInit_ok hinit
  rcases h with h | ⟨hm, hb, h1, h3⟩
  · exact .inl h
  · refine .inr ⟨?_, ?_, by rw [l3]; exact h3⟩
    · obtain ⟨L', E0, e⟩ := genScales_vk hm hs
      exact ⟨L', E0, hk.trans e⟩
    · obtain ⟨e1, -⟩ := hg.shapes
      have hN : Odd (g.Nx : ℤ) := by
        unfold Gen.Nx
        push_cast
        refine Even.add_one (Even.pow_of_ne_zero even_two ?_)
        omega
      have hE : Even (blendExt g.bn) := by
        unfold blendExt
        rw [hbn]
        split_ifs with h0
        · exact (hb.resolve_left (by omega)).sub_odd odd_one
        · exact Even.zero
      have : Odd ((g.shape1.toNat : ℕ) : ℤ) := by
        rw [e1]
        exact hN.add_even ((even_two_mul _).add hE)
      exact_mod_cast this

theorem fromEnd_rev {n : ℕ} (b : Bool) (i : Fin n) : Spec.fromEnd b n i = ((if b then i.rev else i : Fin n) : ℕ) := by
  unfold Spec.fromEnd
  split_ifs
  · rw [Fin.val_rev]; omega
  · rfl

/-- **C123.**  The turbulence of a block keeps its law when axes are reversed together with the components along them: the
first and the third axis together, and the second on its own, for every covariance (so also all three at once), and any axes
for the isotropic covariance (with an odd or no number of blended planes).  The random stream holds independent values of a
common symmetric law without atoms; there is no low-frequency part, and more than one cell across. -/
theorem C123_reversed_law (h : Spec.Stream μ ξ ν) (hat : ∀ x, ν {x} = 0) (hsym : ν.map (fun x => -x) = ν) {env : GenEnv}
    {a : GenArgs} (hp : a.PosScales) (he : a.PosEnergy) (hlow : a.low = none) (hl : 0 < a.l2) {q : ℕ}
    (hinit : genInit env a = (.ok g, q)) (hK : g.kernel.Valid) {p : ProfileArgs} (hv : p.Valid)
    (hlog : p.ptype = "LOG" → p.z0 ≠ p.zref) (hpl : ∀ e, p.plexp = some e → 0 ≤ e) {φ : Fin 3 → Bool}
    (hφ : Spec.MayReverse a φ) {n i : ℕ} (hi : i < n) :
    IdentDistrib
      (fun ω (w : Fin g.Nx × Fin g.Ny × Fin g.Nz × Fin 3) =>
        Spec.deviation env a p g.Nx n (fun n => ξ n ω) i w.1 w.2.1 w.2.2.1 w.2.2.2)
      (fun ω (w : Fin g.Nx × Fin g.Ny × Fin g.Nz × Fin 3) => (if φ w.2.2.2 then -1 else 1) *
        Spec.deviation env a p g.Nx n (fun n => ξ n ω) i (Spec.fromEnd (φ 0) g.Nx w.1) (Spec.fromEnd (φ 1) g.Ny w.2.1)
          (Spec.fromEnd (φ 2) g.Nz w.2.2.1) w.2.2.2) μ μ := by
  have hg := genInit_good hp hinit
  have hr := mayReverse_gen hp hinit hφ
  obtain ⟨K, L, T, hs, hf, hl', -, ⟨-, l2, -⟩, -⟩ := genInit_ok hinit
  have hl2 : 0 < g.l2 := by rw [l2]; exact hl
  have key := fluct_rev_law hg hl2 hK hr h hsym i
  have hae := deviation_fluct h hat hp he hlow hinit hK hv hlog hpl
  refine ((IdentDistrib.of_ae_eq key.aemeasurable_fst ?_).symm.trans key).trans (IdentDistrib.of_ae_eq key.aemeasurable_snd ?_)
  · filter_upwards [hae] with ω hω
    funext w
    exact (hω n i hi w.1 w.2.1 w.2.2.1 w.2.2.2).symm
  · filter_upwards [hae] with ω hω
    funext w
    rw [fromEnd_rev, fromEnd_rev, fromEnd_rev, hω n i hi]
    rfl

theorem fluct_rev_products (hg : g.Good) (hl : 0 < g.l2) (hK : g.kernel.Valid) {φ : Fin 3 → Bool} (hφ : g.Reversible φ)
    (h : Spec.Stream μ ξ ν) (hs : ν.map (fun x => -x) = ν) (x y : g.Cell) :
    ∫ ω, g.fluct (fun n => ξ n ω) 0 (Gen.turned φ x) * g.fluct (fun n => ξ n ω) 0 (Gen.turned φ y) ∂μ =
      Spec.turn φ x.2.2.2 * Spec.turn φ y.2.2.2 * ∫ ω, g.fluct (fun n => ξ n ω) 0 x * g.fluct (fun n => ξ n ω) 0 y ∂μ := by
  have := ((fluct_rev_law hg hl hK hφ h hs 0).comp (cells_measurable (Gen.turned φ x) (Gen.turned φ y))).integral_eq
  simp only [Function.comp_def, turned_turned] at this
  rw [this, ← integral_const_mul]
  refine integral_congr_ae (Eventually.of_forall fun ω => ?_)
  simp only [Gen.turned]
  ring

/-- **C123.**  Long-run statistics under the same reversals: with probability one, for any two points (and components) of a
block, the average over the blocks of the product of the deviations from the mean wind tends to a limit, and the one at the
points counted from the other ends tends to the same limit, up to the signs of the components along the reversed axes. -/
theorem C123_second_moments (h : Spec.Stream μ ξ ν) (hat : ∀ x, ν {x} = 0) (hsym : ν.map (fun x => -x) = ν) {env : GenEnv}
    {a : GenArgs} (hp : a.PosScales) (he : a.PosEnergy) (hlow : a.low = none) (hl : 0 < a.l2) {q : ℕ}
    (hinit : genInit env a = (.ok g, q)) (hK : g.kernel.Valid) {p : ProfileArgs} (hv : p.Valid)
    (hlog : p.ptype = "LOG" → p.z0 ≠ p.zref) (hpl : ∀ e, p.plexp = some e → 0 ≤ e) :
    ∀ᵐ ω ∂μ, ∀ (r r' : Fin g.Nx) (b b' : Fin g.Ny) (c c' : Fin g.Nz) (k k' : Fin 3), ∃ ℓ : ℝ,
      Tendsto (fun n : ℕ => (∑ i ∈ Finset.range n, Spec.deviation env a p g.Nx n (fun n => ξ n ω) i r b c k *
        Spec.deviation env a p g.Nx n (fun n => ξ n ω) i r' b' c' k') / n) atTop (𝓝 ℓ) ∧
      ∀ φ : Fin 3 → Bool, Spec.MayReverse a φ →
        Tendsto (fun n : ℕ => (∑ i ∈ Finset.range n,
          Spec.deviation env a p g.Nx n (fun n => ξ n ω) i (Spec.fromEnd (φ 0) g.Nx r) (Spec.fromEnd (φ 1) g.Ny b)
            (Spec.fromEnd (φ 2) g.Nz c) k *
          Spec.deviation env a p g.Nx n (fun n => ξ n ω) i (Spec.fromEnd (φ 0) g.Nx r') (Spec.fromEnd (φ 1) g.Ny b')
            (Spec.fromEnd (φ 2) g.Nz c') k') / n) atTop
          (𝓝 ((if φ k then -1 else 1) * (if φ k' then -1 else 1) * ℓ)) := by
  have hg := genInit_good hp hinit
  obtain ⟨K, L, T, hs, hf, hl', -, ⟨-, l2, -⟩, -⟩ := genInit_ok hinit
  have hl2 : 0 < g.l2 := by rw [l2]; exact hl
  filter_upwards [deviation_fluct h hat hp he hlow hinit hK hv hlog hpl, fluct_products hg h] with ω hω1 hω2
  intro r r' b b' c c' k k'
  refine ⟨∫ ω, g.fluct (fun n => ξ n ω) 0 (r, b, c, k) * g.fluct (fun n => ξ n ω) 0 (r', b', c', k') ∂μ, ?_, fun φ hφ => ?_⟩
  · refine (hω2 (r, b, c, k) (r', b', c', k')).congr fun n => ?_
    congr 1
    refine Finset.sum_congr rfl fun i hi => ?_
    rw [hω1 n i (Finset.mem_range.1 hi), hω1 n i (Finset.mem_range.1 hi)]
  · have hlim := hω2 (Gen.turned φ (r, b, c, k)) (Gen.turned φ (r', b', c', k'))
    rw [fluct_rev_products hg hl2 hK (mayReverse_gen hp hinit hφ) h hsym] at hlim
    refine hlim.congr fun n => ?_
    congr 1
    refine Finset.sum_congr rfl fun i hi => ?_
    simp only [fromEnd_rev]
    rw [hω1 n i (Finset.mem_range.1 hi), hω1 n i (Finset.mem_range.1 hi)]
    rfl

/-- **C123.**  For every covariance two components may be exchanged between a point and the opposite one (through the centre
of the block): with probability one, the long-run average of the product of component `k` at a point and component `k'` at the
opposite point equals that of component `k'` at the former and `k` at the latter. -/
theorem C123_exchange (h : Spec.Stream μ ξ ν) (hat : ∀ x, ν {x} = 0) (hsym : ν.map (fun x => -x) = ν) {env : GenEnv}
    {a : GenArgs} (hp : a.PosScales) (he : a.PosEnergy) (hlow : a.low = none) (hl : 0 < a.l2) {q : ℕ}
    (hinit : genInit env a = (.ok g, q)) (hK : g.kernel.Valid) {p : ProfileArgs} (hv : p.Valid)
    (hlog : p.ptype = "LOG" → p.z0 ≠ p.zref) (hpl : ∀ e, p.plexp = some e → 0 ≤ e) :
    ∀ᵐ ω ∂μ, ∀ (r : Fin g.Nx) (b : Fin g.Ny) (c : Fin g.Nz) (k k' : Fin 3), ∃ ℓ : ℝ,
      Tendsto (fun n : ℕ => (∑ i ∈ Finset.range n, Spec.deviation env a p g.Nx n (fun n => ξ n ω) i r b c k *
        Spec.deviation env a p g.Nx n (fun n => ξ n ω) i (g.Nx - 1 - r) (g.Ny - 1 - b) (g.Nz - 1 - c) k') / n) atTop (𝓝 ℓ) ∧
      Tendsto (fun n : ℕ => (∑ i ∈ Finset.range n, Spec.deviation env a p g.Nx n (fun n => ξ n ω) i r b c k' *
        Spec.deviation env a p g.Nx n (fun n => ξ n ω) i (g.Nx - 1 - r) (g.Ny - 1 - b) (g.Nz - 1 - c) k) / n) atTop (𝓝 ℓ) := by
  filter_upwards [C123_second_moments h hat hsym hp he hlow hl hinit hK hv hlog hpl] with ω hω
  intro r b c k k'
  obtain ⟨ℓ, h1, h2⟩ := hω r r.rev b b.rev c c.rev k k'
  have e : ∀ {n : ℕ} (i : Fin n), (i.rev : ℕ) = n - 1 - i := fun i => by rw [Fin.val_rev]; omega
  have e' : ∀ {n : ℕ} (i : Fin n), n - 1 - (n - 1 - (i : ℕ)) = i := fun i => by have := i.isLt; omega
  have h3 := h2 (fun _ => true) (.inl rfl)
  simp only [e, Spec.fromEnd, if_true, e'] at h1 h3
  refine ⟨ℓ, h1, ?_⟩
  have : ((-1 : ℝ) * -1 * ℓ) = ℓ := by ring
  rw [this] at h3
  refine h3.congr fun n => ?_
  congr 1
  exact Finset.sum_congr rfl fun i _ => mul_comm _ _

/-- **C123.**  The isotropic covariance carries no momentum up or down: half-way up, the vertical component is uncorrelated
with the other two (number of blended planes odd or not positive). -/
theorem C123_no_vertical_flux (h : Spec.Stream μ ξ ν) (hat : ∀ x, ν {x} = 0) (hsym : ν.map (fun x => -x) = ν) {env : GenEnv}
    {a : GenArgs} (hp : a.PosScales) (he : a.PosEnergy) (hlow : a.low = none) (hl : 0 < a.l1 ∧ 0 < a.l2 ∧ 0 < a.l3)
    (hm : a.model = "VK") (hb : a.bn ≤ 0 ∨ Odd a.bn) {q : ℕ}
    (hinit : genInit env a = (.ok g, q)) (hK : g.kernel.Valid) {p : ProfileArgs} (hv : p.Valid)
    (hlog : p.ptype = "LOG" → p.z0 ≠ p.zref) (hpl : ∀ e, p.plexp = some e → 0 ≤ e) :
    ∀ᵐ ω ∂μ, ∀ (r r' : Fin g.Nx) (b b' : Fin g.Ny) (k : Fin 3), k ≠ 2 →
      Tendsto (fun n : ℕ => (∑ i ∈ Finset.range n,
        Spec.deviation env a p g.Nx n (fun n => ξ n ω) i r b (2 ^ (a.l3 - 1)) k *
        Spec.deviation env a p g.Nx n (fun n => ξ n ω) i r' b' (2 ^ (a.l3 - 1)) 2) / n) atTop (𝓝 0) := by
  obtain ⟨K, L, T, hs, hf, hl', -, ⟨-, -, l3⟩, -⟩ := genInit_ok hinit
  have h2 : 2 ^ (a.l3 - 1) + 2 ^ (a.l3 - 1) = 2 ^ a.l3 := by
    rw [← two_mul, ← pow_succ', Nat.sub_add_cancel hl.2.2]
  have hNz : g.Nz = 2 ^ a.l3 + 1 := by unfold Gen.Nz; rw [l3]
  have hlt : 2 ^ (a.l3 - 1) < g.Nz := by omega
  filter_upwards [C123_second_moments h hat hsym hp he hlow hl.2.1 hinit hK hv hlog hpl] with ω hω
  intro r r' b b' k hk
  obtain ⟨ℓ, h1, h2'⟩ := hω r r' b b' ⟨_, hlt⟩ ⟨_, hlt⟩ k 2
  have h3 := h2' (fun i => i == 2) (.inr ⟨hm, hb, hl.1, hl.2.2⟩)
  have hmid : g.Nz - 1 - 2 ^ (a.l3 - 1) = 2 ^ (a.l3 - 1) := by omega
  have hk' : (k == 2) = false := by simpa using hk
  simp only [Spec.fromEnd, hk', hmid] at h3
  simp at h3
  have hz := tendsto_nhds_unique h1 h3
  have hℓ : ℓ = 0 := by linarith
  rw [hℓ] at h1
  exact h1
end

/-- Arguments meeting the hypotheses (with the stream and the profile of the case beside `C97_mean_wind`). -/
example (env : GenEnv) : exampleArgs.PosScales ∧ exampleArgs.PosEnergy ∧ exampleArgs.low = none ∧ 0 < exampleArgs.l2 ∧
    Spec.MayReverse exampleArgs (fun _ => true) ∧
    ∃ g, genInit env exampleArgs = (.ok g, env.globPos) ∧ g.kernel.Valid := by
  obtain ⟨h1, h2, h3, -⟩ := exampleArgs_physical env
  exact ⟨h1, h2, rfl, by decide, .inl rfl, h3⟩

/-- With an odd number of blended planes every axis may be reversed. -/
example (env : GenEnv) : ({ exampleArgs with bn := 9 }).PosScales ∧ ({ exampleArgs with bn := 9 }).PosEnergy ∧
    (∀ φ, Spec.MayReverse { exampleArgs with bn := 9 } φ) ∧
    ∃ g, genInit env { exampleArgs with bn := 9 } = (.ok g, env.globPos) ∧ g.kernel.Valid := by
  obtain ⟨h1, h2, -⟩ := exampleArgs_physical env
  have hz : (0 : ℝ) < 180 := by norm_num
  refine ⟨h1, h2, fun φ => .inr ⟨rfl, .inr (by change Odd (9 : ℤ); decide), by decide, by decide⟩, ?_⟩
  obtain ⟨g, hg⟩ := genInit_exists env (a := { exampleArgs with bn := 9 }) (Or.inl rfl) (L := 50) (T := 3) (e := 0.5)
    rfl rfl rfl (by norm_num [exampleArgs])
    ⟨by norm_num [exampleArgs], by norm_num [exampleArgs], by norm_num [exampleArgs]⟩ ⟨by norm_num, by norm_num⟩ rfl
  refine ⟨g, hg, ?_⟩
  obtain ⟨K, L, T, hs, -, -, -, -, -, -, hk, -⟩ := genInit_ok hg
  have : genScales env { exampleArgs with bn := 9 } = .ok (.vk 50 (0.5 * 1.7 ^ 2 * (180 : ℝ) ^ (-2 / 3 : ℝ)), 50, 3) := by
    unfold genScales
    simp [exampleArgs, heightPower_pos hz]
  rw [this] at hs
  simp only [Except.ok.injEq, Prod.mk.injEq] at hs
  rw [hk, ← hs.1]
  exact ⟨by norm_num, by positivity⟩
end
end Verif
