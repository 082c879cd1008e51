import Verif.Model.RoundedSampling
import Verif.Props.BlockGain
import Verif.Props.Rounding

/-!
# C141: the sampled field in floating point arithmetic
-/

namespace Verif
open Fl

noncomputable section

section norms
variable {ι E : Type*} [Fintype ι] [NormedAddCommGroup E]

/-- Weighted Euclidean norm of a family. -/
def wnorm (w : ι → ℝ) (f : ι → E) : ℝ := Real.sqrt (∑ i, w i * ‖f i‖ ^ 2)

theorem wnorm_eq {w : ι → ℝ} (hw : ∀ i, 0 ≤ w i) (f : ι → E) :
    wnorm w f = ‖(WithLp.toLp 2 fun i => Real.sqrt (w i) * ‖f i‖ : EuclideanSpace ℝ ι)‖ := by
  rw [EuclideanSpace.norm_eq]
  unfold wnorm
  congr 1
  refine Finset.sum_congr rfl fun i _ => ?_
  rw [Real.norm_eq_abs, sq_abs, mul_pow, Real.sq_sqrt (hw i)]

theorem wnorm_mono {F : Type*} [NormedAddCommGroup F] {w : ι → ℝ} (hw : ∀ i, 0 ≤ w i) {f : ι → E} {g : ι → F}
    (h : ∀ i, ‖f i‖ ≤ ‖g i‖) : wnorm w f ≤ wnorm w g :=
  Real.sqrt_le_sqrt (Finset.sum_le_sum fun i _ =>
    mul_le_mul_of_nonneg_left (pow_le_pow_left₀ (norm_nonneg _) (h i) 2) (hw i))

theorem wnorm_add_le {w : ι → ℝ} (hw : ∀ i, 0 ≤ w i) (f g : ι → E) :
    wnorm w (fun i => f i + g i) ≤ wnorm w f + wnorm w g := by
  have h1 : wnorm w (fun i => f i + g i) ≤ wnorm w (fun i => ‖f i‖ + ‖g i‖) :=
    wnorm_mono hw fun i => (norm_add_le _ _).trans (le_abs_self _)
  refine h1.trans ?_
  rw [wnorm_eq hw, wnorm_eq hw, wnorm_eq hw]
  have e : (WithLp.toLp 2 fun i => Real.sqrt (w i) * ‖(‖f i‖ + ‖g i‖ : ℝ)‖ : EuclideanSpace ℝ ι) =
      (WithLp.toLp 2 fun i => Real.sqrt (w i) * ‖f i‖) + (WithLp.toLp 2 fun i => Real.sqrt (w i) * ‖g i‖) := by
    ext i
    simp only [PiLp.add_apply]
    rw [Real.norm_eq_abs, abs_of_nonneg (by positivity)]
    ring
  rw [e]
  exact norm_add_le _ _

theorem wnorm_nonneg (w : ι → ℝ) (f : ι → E) : 0 ≤ wnorm w f := Real.sqrt_nonneg _

theorem wnorm_sq {w : ι → ℝ} (hw : ∀ i, 0 ≤ w i) (f : ι → E) : wnorm w f ^ 2 = ∑ i, w i * ‖f i‖ ^ 2 :=
  Real.sq_sqrt (Finset.sum_nonneg fun i _ => mul_nonneg (hw i) (sq_nonneg _))

theorem wnorm_le_of_sq {w : ι → ℝ} {f : ι → E} {c : ℝ} (hc : 0 ≤ c) (h : ∑ i, w i * ‖f i‖ ^ 2 ≤ c ^ 2) : wnorm w f ≤ c :=
  Real.sqrt_le_iff.2 ⟨hc, h⟩

/-- `f` within `b` of `g`, and `g` at most `c`: `f` is at most `b + c`. -/
theorem wnorm_le_add {w : ι → ℝ} (hw : ∀ i, 0 ≤ w i) (f g : ι → E) :
    wnorm w f ≤ wnorm w (fun i => f i - g i) + wnorm w g := by
  have := wnorm_add_le hw (fun i => f i - g i) g
  simpa using this

end norms

section box
variable {n1 n2 n3 : ℕ} [NeZero n1] [NeZero n2] [NeZero n3]

omit [NeZero n1] [NeZero n2] [NeZero n3] in
theorem halfWeight_nonneg (k : Box n1 n2 n3) : 0 ≤ halfWeight k := by
  unfold halfWeight c2rWeight
  split_ifs <;> norm_num

/-- Every mode and its mirror image together have weight two. -/
theorem halfWeight_add (k : Box n1 n2 n3) : halfWeight k + halfWeight (-k) = 2 := by
  have hlt : k.2.2.val < n3 := ZMod.val_lt _
  have hv := val_neg_three k
  unfold halfWeight c2rWeight
  rw [hv]
  by_cases h0 : k.2.2.val = 0
  · simp [h0]; norm_num
  · rw [if_neg h0]
    split_ifs <;> first | omega | norm_num

theorem herm_sq_le (Y : Box n1 n2 n3 → ℂ) (k : Box n1 n2 n3) :
    ‖herm Y k‖ ^ 2 ≤ (halfWeight k * ‖Y k‖ ^ 2 + halfWeight (-k) * ‖Y (-k)‖ ^ 2) / 2 := by
  have hlt : k.2.2.val < n3 := ZMod.val_lt _
  have hv := val_neg_three k
  unfold herm
  by_cases h0 : k.2.2.val = 0 ∨ 2 * k.2.2.val = n3
  · have w1 : halfWeight k = 1 := by
      unfold halfWeight c2rWeight
      rw [if_pos (by omega), if_pos h0]
    have w2 : halfWeight (-k) = 1 := by linarith [halfWeight_add k]
    rw [if_pos h0, w1, w2, norm_div]
    have t := norm_add_le (Y k) ((starRingEnd ℂ) (Y (-k)))
    rw [RCLike.norm_conj] at t
    have n2 : ‖(2 : ℂ)‖ = 2 := by simp
    rw [n2, div_pow]
    have := pow_le_pow_left₀ (norm_nonneg _) t 2
    nlinarith [sq_nonneg (‖Y k‖ - ‖Y (-k)‖)]
  · rw [if_neg h0]
    by_cases h1 : 2 * k.2.2.val < n3
    · have w1 : halfWeight k = 2 := by
        unfold halfWeight c2rWeight
        rw [if_pos (by omega), if_neg h0]
      have w2 : halfWeight (-k) = 0 := by linarith [halfWeight_add k]
      rw [if_pos h1, w1, w2]
      linarith
    · have w1 : halfWeight k = 0 := by
        unfold halfWeight
        rw [if_neg (by omega)]
      have w2 : halfWeight (-k) = 2 := by linarith [halfWeight_add k]
      rw [if_neg h1, w1, w2, RCLike.norm_conj]
      linarith

theorem sum_half_sym (a : Box n1 n2 n3 → ℝ) : ∑ k, (a k + a (-k)) / 2 = ∑ k, a k := by
  have h : ∑ k : Box n1 n2 n3, a (-k) = ∑ k, a k := Equiv.sum_comp (Equiv.neg (Box n1 n2 n3)) a
  rw [← Finset.sum_div, Finset.sum_add_distrib, h]
  ring

theorem voxels_posR : (0 : ℝ) < voxels n1 n2 n3 := by
  have : 0 < voxels n1 n2 n3 := by
    unfold voxels
    have := NeZero.pos n1
    have := NeZero.pos n2
    have := NeZero.pos n3
    positivity
  exact_mod_cast this

/-- The complex-to-real transform does not enlarge: its energy is at most that of the half spectrum over the number of points. -/
theorem irfftn_energy (Y : Box n1 n2 n3 → ℂ) :
    ∑ x, irfftn Y x ^ 2 ≤ (∑ k, halfWeight k * ‖Y k‖ ^ 2) / voxels n1 n2 n3 := by
  have hN := voxels_posR (n1 := n1) (n2 := n2) (n3 := n3)
  have h1 : ∀ x, irfftn Y x ^ 2 = (1 / (voxels n1 n2 n3 : ℝ)) ^ 2 * ‖∑ k, herm Y k * wave k x‖ ^ 2 := by
    intro x
    have h2 : irfftn Y x ^ 2 = ‖((irfftn Y x : ℝ) : ℂ)‖ ^ 2 := by
      rw [Complex.norm_real, Real.norm_eq_abs, sq_abs]
    rw [h2, irfftn_eq]
    unfold ifftn
    rw [norm_mul, mul_pow]
    congr 2
    simp
  simp only [h1]
  rw [← Finset.mul_sum, parseval_box]
  have h3 : ∑ k, ‖herm Y k‖ ^ 2 ≤ ∑ k, halfWeight k * ‖Y k‖ ^ 2 := by
    rw [← sum_half_sym fun k => halfWeight k * ‖Y k‖ ^ 2]
    exact Finset.sum_le_sum fun k _ => herm_sq_le Y k
  calc (1 / (voxels n1 n2 n3 : ℝ)) ^ 2 * (voxels n1 n2 n3 * ∑ k, ‖herm Y k‖ ^ 2)
      = (∑ k, ‖herm Y k‖ ^ 2) / voxels n1 n2 n3 := by field_simp
    _ ≤ _ := div_le_div_of_nonneg_right h3 hN.le

/-- The half spectrum of a real field has the energy of the field times the number of points. -/
theorem fftn_energy (f : Box n1 n2 n3 → ℝ) :
    ∑ k, halfWeight k * ‖fftn (fun x => (f x : ℂ)) k‖ ^ 2 = voxels n1 n2 n3 * ∑ x, f x ^ 2 := by
  have h1 : ∑ k, halfWeight k * ‖fftn (fun x => (f x : ℂ)) k‖ ^ 2 = ∑ k, ‖fftn (fun x => (f x : ℂ)) k‖ ^ 2 := by
    rw [← sum_half_sym fun k => halfWeight k * ‖fftn (fun x => (f x : ℂ)) k‖ ^ 2]
    refine Finset.sum_congr rfl fun k _ => ?_
    rw [fftn_real, RCLike.norm_conj, ← add_mul, halfWeight_add]
    ring
  rw [h1, ← Equiv.sum_comp (Equiv.neg _)]
  have h2 := parseval_box fun x : Box n1 n2 n3 => (f x : ℂ)
  have h3 : ∀ k : Box n1 n2 n3, fftn (fun x => (f x : ℂ)) (-k) = ∑ x, (f x : ℂ) * wave x k := by
    intro k
    unfold fftn
    rw [neg_neg]
    exact Finset.sum_congr rfl fun x _ => by rw [wave_comm]
  simp only [Equiv.neg_apply, h3, h2]
  congr 1
  exact Finset.sum_congr rfl fun x _ => by rw [Complex.norm_real, Real.norm_eq_abs, sq_abs]


omit [NeZero n1] [NeZero n2] [NeZero n3] in
theorem halfEnergy_prod [NeZero n1] [NeZero n2] [NeZero n3] (Y : Box n1 n2 n3 → Fin 3 → ℂ) :
    halfEnergy Y = ∑ p : Box n1 n2 n3 × Fin 3, halfWeight p.1 * ‖Y p.1 p.2‖ ^ 2 := by
  rw [Fintype.sum_prod_type]; rfl

/-- Norm of a half spectrum. -/
def hnorm (Y : Box n1 n2 n3 → Fin 3 → ℂ) : ℝ :=
  wnorm (fun p : Box n1 n2 n3 × Fin 3 => halfWeight p.1) fun p => Y p.1 p.2

/-- Norm of a field. -/
def fnorm (f : Box n1 n2 n3 → Fin 3 → ℝ) : ℝ := Real.sqrt (∑ x, ∑ i, f x i ^ 2)

theorem fnorm_eq (f : Box n1 n2 n3 → Fin 3 → ℝ) :
    fnorm f = wnorm (fun _ : Box n1 n2 n3 × Fin 3 => 1) fun p => f p.1 p.2 := by
  unfold fnorm wnorm
  rw [Fintype.sum_prod_type (f := fun p : Box n1 n2 n3 × Fin 3 => (1 : ℝ) * ‖f p.1 p.2‖ ^ 2)]
  congr 1
  refine Finset.sum_congr rfl fun x _ => Finset.sum_congr rfl fun i _ => ?_
  rw [one_mul, Real.norm_eq_abs, sq_abs]

theorem hnorm_sq (Y : Box n1 n2 n3 → Fin 3 → ℂ) : hnorm Y ^ 2 = halfEnergy Y := by
  rw [halfEnergy_prod]
  unfold hnorm
  rw [wnorm_sq (fun p : Box n1 n2 n3 × Fin 3 => halfWeight_nonneg p.1)]

theorem hnorm_nonneg (Y : Box n1 n2 n3 → Fin 3 → ℂ) : 0 ≤ hnorm Y := wnorm_nonneg _ _

theorem hnorm_le {Y : Box n1 n2 n3 → Fin 3 → ℂ} {c : ℝ} (hc : 0 ≤ c) (h : halfEnergy Y ≤ c ^ 2) : hnorm Y ≤ c := by
  rw [halfEnergy_prod] at h
  exact wnorm_le_of_sq hc h

theorem hnorm_le_add (Y Z : Box n1 n2 n3 → Fin 3 → ℂ) : hnorm Y ≤ hnorm (fun k i => Y k i - Z k i) + hnorm Z := by
  unfold hnorm
  exact wnorm_le_add (fun p : Box n1 n2 n3 × Fin 3 => halfWeight_nonneg p.1) (fun p => Y p.1 p.2) (fun p => Z p.1 p.2)

theorem fnorm_le_add (f g : Box n1 n2 n3 → Fin 3 → ℝ) : fnorm f ≤ fnorm (fun x i => f x i - g x i) + fnorm g := by
  simp only [fnorm_eq]
  exact wnorm_le_add (fun _ => zero_le_one) _ _

theorem fnorm_nonneg (f : Box n1 n2 n3 → Fin 3 → ℝ) : 0 ≤ fnorm f := Real.sqrt_nonneg _

theorem hnorm_fftn (noise : Box n1 n2 n3 → Fin 3 → ℝ) :
    hnorm (fun (k : Box n1 n2 n3) l => fftn (fun x => (noise x l : ℂ)) k) = Real.sqrt (voxels n1 n2 n3) * fnorm noise := by
  have h : hnorm (fun (k : Box n1 n2 n3) l => fftn (fun x => (noise x l : ℂ)) k) ^ 2 =
      (Real.sqrt (voxels n1 n2 n3) * fnorm noise) ^ 2 := by
    rw [hnorm_sq, mul_pow, Real.sq_sqrt voxels_posR.le]
    unfold fnorm halfEnergy
    rw [Real.sq_sqrt (by positivity), Finset.sum_comm]
    simp only [fftn_energy]
    rw [← Finset.mul_sum, Finset.sum_comm]
  exact (pow_left_inj₀ (hnorm_nonneg _) (mul_nonneg (Real.sqrt_nonneg _) (fnorm_nonneg _)) two_ne_zero).1 h

theorem fnorm_irfftn (Y : Box n1 n2 n3 → Fin 3 → ℂ) :
    fnorm (fun x i => irfftn (fun k => Y k i) x) ≤ hnorm Y / Real.sqrt (voxels n1 n2 n3) := by
  unfold fnorm
  refine Real.sqrt_le_iff.2 ⟨div_nonneg (hnorm_nonneg _) (Real.sqrt_nonneg _), ?_⟩
  rw [div_pow, hnorm_sq, Real.sq_sqrt voxels_posR.le, Finset.sum_comm]
  unfold halfEnergy
  rw [Finset.sum_comm (s := Finset.univ (α := Box n1 n2 n3)), Finset.sum_div]
  exact Finset.sum_le_sum fun i _ => irfftn_energy _

/-- Cauchy-Schwarz for one product of a matrix and a vector. -/
theorem mulVec_sq_le (a : Fin 3 → Fin 3 → ℂ) (h : Fin 3 → ℂ) :
    ∑ i, ‖∑ l, a i l * h l‖ ^ 2 ≤ (∑ i, ∑ l, ‖a i l‖ ^ 2) * ∑ l, ‖h l‖ ^ 2 := by
  rw [Finset.sum_mul]
  refine Finset.sum_le_sum fun i _ => ?_
  have h1 : ‖∑ l, a i l * h l‖ ≤ ∑ l, ‖a i l‖ * ‖h l‖ :=
    (norm_sum_le _ _).trans (le_of_eq (Finset.sum_congr rfl fun l _ => norm_mul _ _))
  exact (pow_le_pow_left₀ (norm_nonneg _) h1 2).trans (Finset.sum_mul_sq_le_sq_mul_sq _ _ _)

theorem spectrumHalf_sq (S : Box n1 n2 n3 → Matrix (Fin 3) (Fin 3) ℂ) (k : Box n1 n2 n3) :
    ∑ i, ∑ l, ‖spectrumHalf S k i l‖ ^ 2 = voxels n1 n2 n3 * ∑ i, ∑ l, ‖S k i l‖ ^ 2 := by
  simp only [Finset.mul_sum]
  refine Finset.sum_congr rfl fun i _ => Finset.sum_congr rfl fun l _ => ?_
  unfold spectrumHalf
  rw [norm_mul, mul_pow, Complex.norm_real, Real.norm_eq_abs, sq_abs, Real.sq_sqrt voxels_posR.le, mul_comm]

/-- Energies of half spectra compared mode by mode. -/
theorem hnorm_le_modes {X h : Box n1 n2 n3 → Fin 3 → ℂ} {c : ℝ} (hc : 0 ≤ c)
    (H : ∀ k, ∑ i, ‖X k i‖ ^ 2 ≤ c ^ 2 * ∑ l, ‖h k l‖ ^ 2) : hnorm X ≤ c * hnorm h := by
  refine hnorm_le (mul_nonneg hc (hnorm_nonneg _)) ?_
  rw [mul_pow, hnorm_sq]
  unfold halfEnergy
  rw [Finset.mul_sum]
  refine Finset.sum_le_sum fun k _ => ?_
  rw [← Finset.mul_sum, ← Finset.mul_sum]
  have := mul_le_mul_of_nonneg_left (H k) (halfWeight_nonneg k)
  linarith

/-- The error of a call with products accurate relative to the norms of the factors. -/
theorem vf_error {S : Box n1 n2 n3 → Matrix (Fin 3) (Fin 3) ℂ} {norm : ℝ} {noise : Box n1 n2 n3 → Fin 3 → ℝ} {η κ ν M : ℝ}
    (hη : 0 ≤ η) (hκ : 0 ≤ κ) (hν : 0 ≤ ν) (hM : 0 ≤ M) (hS : ∀ k, ∑ i, ∑ l, ‖S k i l‖ ^ 2 ≤ M ^ 2)
    {h g : Box n1 n2 n3 → Fin 3 → ℂ} {y z : Box n1 n2 n3 → Fin 3 → ℝ}
    (h1 : halfEnergy (fun k l => h k l - fftn (fun x => (noise x l : ℂ)) k) ≤
      η ^ 2 * halfEnergy (fun (k : Box n1 n2 n3) (l : Fin 3) => fftn (fun x => (noise x l : ℂ)) k))
    (h2 : ∀ k, ∑ i, ‖g k i - ∑ l, spectrumHalf S k i l * h k l‖ ^ 2 ≤
      κ ^ 2 * ((∑ i, ∑ l, ‖spectrumHalf S k i l‖ ^ 2) * ∑ l, ‖h k l‖ ^ 2))
    (h3 : ∑ x, ∑ i, (z x i - irfftn (fun k => g k i) x) ^ 2 ≤ η ^ 2 * (halfEnergy g / voxels n1 n2 n3))
    (h4 : ∀ x i, |y x i - z x i / norm| ≤ ν * |z x i / norm|) :
    let bound := M * Real.sqrt (∑ x, ∑ i, noise x i ^ 2) / (|norm| / Real.sqrt (voxels n1 n2 n3))
    Real.sqrt (∑ x, ∑ i, vfSample S norm noise x i ^ 2) ≤ bound ∧
    Real.sqrt (∑ x, ∑ i, (y x i - vfSample S norm noise x i) ^ 2) ≤ ((1 + η) ^ 2 * (1 + κ) * (1 + ν) - 1) * bound := by
  intro bound
  have hN := voxels_posR (n1 := n1) (n2 := n2) (n3 := n3)
  obtain ⟨N, hNdef⟩ : ∃ N, N = Real.sqrt (voxels n1 n2 n3) := ⟨_, rfl⟩
  have N0 : 0 < N := by rw [hNdef]; exact Real.sqrt_pos.2 hN
  have NN : N ^ 2 = voxels n1 n2 n3 := by rw [hNdef]; exact Real.sq_sqrt hN.le
  obtain ⟨F, hF⟩ : ∃ F : Box n1 n2 n3 → Fin 3 → ℂ, F = fun k l => fftn (fun x => (noise x l : ℂ)) k := ⟨_, rfl⟩
  obtain ⟨a, ha⟩ : ∃ a, a = hnorm F := ⟨_, rfl⟩
  have a0 : 0 ≤ a := ha ▸ hnorm_nonneg _
  have aF : a = N * fnorm noise := by rw [ha, hF, hnorm_fftn, hNdef]
  -- the forward transform
  have e1 : hnorm (fun k l => h k l - F k l) ≤ η * a := by
    refine hnorm_le (mul_nonneg hη a0) ?_
    rw [mul_pow, ha, hnorm_sq, hF]
    exact h1
  have e2 : hnorm h ≤ (1 + η) * a := by
    have := hnorm_le_add h F
    rw [← ha] at this
    linarith
  -- the products
  have mulle : ∀ X : Box n1 n2 n3 → Fin 3 → ℂ, hnorm (fun k i => ∑ l, spectrumHalf S k i l * X k l) ≤ N * M * hnorm X := by
    intro X
    refine hnorm_le_modes (by positivity) fun k => (mulVec_sq_le _ _).trans ?_
    rw [spectrumHalf_sq, mul_pow, NN]
    exact mul_le_mul_of_nonneg_right (mul_le_mul_of_nonneg_left (hS k) hN.le) (by positivity)
  have e3 : hnorm (fun k i => g k i - ∑ l, spectrumHalf S k i l * h k l) ≤ κ * (N * M) * hnorm h := by
    refine hnorm_le_modes (by positivity) fun k => (h2 k).trans ?_
    rw [spectrumHalf_sq, mul_pow, mul_pow, NN, ← mul_assoc]
    exact mul_le_mul_of_nonneg_right (mul_le_mul_of_nonneg_left (mul_le_mul_of_nonneg_left (hS k) hN.le) (by positivity))
      (by positivity)
  obtain ⟨G, hG⟩ : ∃ G : Box n1 n2 n3 → Fin 3 → ℂ, G = fun k i => ∑ l, spectrumHalf S k i l * F k l := ⟨_, rfl⟩
  have e4 : hnorm (fun k i => g k i - G k i) ≤ N * M * a * ((1 + κ) * (1 + η) - 1) := by
    have t := hnorm_le_add (fun k i => g k i - G k i) (fun k i => ∑ l, spectrumHalf S k i l * (h k l - F k l))
    have t2 := mulle fun k l => h k l - F k l
    have t3 : (fun k i => (g k i - G k i) - ∑ l, spectrumHalf S k i l * (h k l - F k l)) =
        fun k i => g k i - ∑ l, spectrumHalf S k i l * h k l := by
      funext k i
      rw [hG]
      simp only [mul_sub, Finset.sum_sub_distrib]
      ring
    rw [t3] at t
    have NM : 0 ≤ N * M := by positivity
    have b1 := mul_le_mul_of_nonneg_left e2 (mul_nonneg hκ NM)
    have b2 := mul_le_mul_of_nonneg_left e1 NM
    have : κ * (N * M) * ((1 + η) * a) + N * M * (η * a) = N * M * a * ((1 + κ) * (1 + η) - 1) := by ring
    linarith
  have e5 : hnorm G ≤ N * M * a := by
    have := mulle F
    rw [← ha] at this
    rwa [hG]
  have e6 : hnorm g ≤ N * M * a * ((1 + κ) * (1 + η)) := by
    have := hnorm_le_add g G
    have t : N * M * a * ((1 + κ) * (1 + η) - 1) + N * M * a = N * M * a * ((1 + κ) * (1 + η)) := by ring
    linarith
  -- the inverse transform
  have e7 : fnorm (fun x i => z x i - irfftn (fun k => g k i) x) ≤ η * (hnorm g / N) := by
    unfold fnorm
    refine Real.sqrt_le_iff.2 ⟨mul_nonneg hη (div_nonneg (hnorm_nonneg _) N0.le), ?_⟩
    rw [mul_pow, div_pow, hnorm_sq, NN]
    exact h3
  obtain ⟨f, hf⟩ : ∃ f : Box n1 n2 n3 → Fin 3 → ℝ, f = fun x i => irfftn (fun k => G k i) x := ⟨_, rfl⟩
  have e8 : fnorm f ≤ M * a := by
    have := fnorm_irfftn G
    rw [← hNdef] at this
    rw [hf]
    refine this.trans ?_
    rw [div_le_iff₀ N0]
    linarith
  have e9 : fnorm (fun x i => z x i - f x i) ≤ M * a * ((1 + η) ^ 2 * (1 + κ) - 1) := by
    have t := fnorm_le_add (fun x i => z x i - f x i) (fun x i => irfftn (fun k => g k i - G k i) x)
    have t3 : (fun x i => (z x i - f x i) - irfftn (fun k => g k i - G k i) x) =
        fun x i => z x i - irfftn (fun k => g k i) x := by
      funext x i
      have l := irfftn_linear 1 (-1) (fun k => g k i) (fun k => G k i) x
      have l2 : (fun k => ((1 : ℝ) : ℂ) * g k i + ((-1 : ℝ) : ℂ) * G k i) = fun k => g k i - G k i := by
        funext k; push_cast; ring
      rw [l2] at l
      rw [l, hf]
      ring
    rw [t3] at t
    have t4 := fnorm_irfftn fun k i => g k i - G k i
    rw [← hNdef] at t4
    have b1 : hnorm (fun k i => g k i - G k i) / N ≤ M * a * ((1 + κ) * (1 + η) - 1) := by
      rw [div_le_iff₀ N0]; linarith
    have b2 : hnorm g / N ≤ M * a * ((1 + κ) * (1 + η)) := by
      rw [div_le_iff₀ N0]; linarith
    have b3 := mul_le_mul_of_nonneg_left b2 hη
    have : η * (M * a * ((1 + κ) * (1 + η))) + M * a * ((1 + κ) * (1 + η) - 1) = M * a * ((1 + η) ^ 2 * (1 + κ) - 1) := by ring
    linarith
  have e10 : fnorm z ≤ M * a * ((1 + η) ^ 2 * (1 + κ)) := by
    have := fnorm_le_add z f
    have t : M * a * ((1 + η) ^ 2 * (1 + κ) - 1) + M * a = M * a * ((1 + η) ^ 2 * (1 + κ)) := by ring
    linarith
  -- the division
  have hv : ∀ x i, vfSample S norm noise x i = f x i / norm := by
    intro x i
    rw [vfSample_eq, hf, hG, hF]
    rfl
  have scale : ∀ w : Box n1 n2 n3 → Fin 3 → ℝ, fnorm (fun x i => w x i / norm) = fnorm w / |norm| := by
    intro w
    unfold fnorm
    rw [← Real.sqrt_sq_eq_abs, ← Real.sqrt_div' _ (sq_nonneg _), Finset.sum_div]
    congr 1
    refine Finset.sum_congr rfl fun x _ => ?_
    rw [Finset.sum_div]
    exact Finset.sum_congr rfl fun i _ => div_pow _ _ _
  have hb : bound = M * a / |norm| := by
    change M * fnorm noise / (|norm| / Real.sqrt (voxels n1 n2 n3)) = _
    rw [← hNdef, aF, div_div_eq_mul_div]
    ring
  have e11 : fnorm (fun x i => y x i - z x i / norm) ≤ ν * (fnorm z / |norm|) := by
    rw [← scale]
    simp only [fnorm_eq]
    refine wnorm_le_of_sq (mul_nonneg hν (wnorm_nonneg _ _)) ?_
    rw [mul_pow, wnorm_sq (fun _ => zero_le_one), Finset.mul_sum]
    refine Finset.sum_le_sum fun p _ => ?_
    have := pow_le_pow_left₀ (abs_nonneg _) (h4 p.1 p.2) 2
    rw [mul_pow, sq_abs, sq_abs] at this
    rw [one_mul, one_mul, Real.norm_eq_abs, Real.norm_eq_abs, sq_abs, sq_abs]
    exact this
  have n0 : 0 ≤ |norm|⁻¹ := inv_nonneg.2 (abs_nonneg _)
  constructor
  · change fnorm (vfSample S norm noise) ≤ bound
    have : vfSample S norm noise = fun x i => f x i / norm := by funext x i; exact hv x i
    rw [this, scale, hb]
    exact div_le_div_of_nonneg_right e8 (abs_nonneg _)
  · change fnorm (fun x i => y x i - vfSample S norm noise x i) ≤ _
    have t := fnorm_le_add (fun x i => y x i - vfSample S norm noise x i) (fun x i => (z x i - f x i) / norm)
    have t2 : (fun x i => (y x i - vfSample S norm noise x i) - (z x i - f x i) / norm) = fun x i => y x i - z x i / norm := by
      funext x i
      rw [hv]
      ring
    rw [t2, scale] at t
    have b1 := mul_le_mul_of_nonneg_right e10 n0
    have b2 := mul_le_mul_of_nonneg_right e9 n0
    have b3 := mul_le_mul_of_nonneg_left b1 hν
    simp only [← div_eq_mul_inv] at b1 b2 b3
    rw [hb]
    have : ν * (M * a * ((1 + η) ^ 2 * (1 + κ)) / |norm|) + M * a * ((1 + η) ^ 2 * (1 + κ) - 1) / |norm| =
        ((1 + η) ^ 2 * (1 + κ) * (1 + ν) - 1) * (M * a / |norm|) := by ring
    linarith

/-- Frobenius norm of a 3x3 array as a Euclidean norm. -/
theorem frob_eq (a : Fin 3 → Fin 3 → ℂ) : Real.sqrt (∑ i, ∑ l, ‖a i l‖ ^ 2) = wnorm (fun _ : Fin 3 × Fin 3 => 1) fun p => a p.1 p.2 := by
  unfold wnorm
  rw [Fintype.sum_prod_type (f := fun p : Fin 3 × Fin 3 => (1 : ℝ) * ‖a p.1 p.2‖ ^ 2)]
  simp only [one_mul]

/-- Products with a perturbed matrix. -/
theorem product_error {a a' : Fin 3 → Fin 3 → ℂ} {h g : Fin 3 → ℂ} {κ ε : ℝ} (hκ : 0 ≤ κ) (hε : 0 ≤ ε)
    (ha : ∑ i, ∑ l, ‖a' i l - a i l‖ ^ 2 ≤ κ ^ 2 * ∑ i, ∑ l, ‖a i l‖ ^ 2)
    (hg : ∀ i, ‖g i - ∑ l, a' i l * h l‖ ≤ ε * ∑ l, ‖a' i l‖ * ‖h l‖) :
    ∑ i, ‖g i - ∑ l, a i l * h l‖ ^ 2 ≤ ((1 + κ) * (1 + ε) - 1) ^ 2 * ((∑ i, ∑ l, ‖a i l‖ ^ 2) * ∑ l, ‖h l‖ ^ 2) := by
  obtain ⟨F, hF⟩ : ∃ F, F = Real.sqrt (∑ i, ∑ l, ‖a i l‖ ^ 2) := ⟨_, rfl⟩
  obtain ⟨H, hH⟩ : ∃ H, H = Real.sqrt (∑ l, ‖h l‖ ^ 2) := ⟨_, rfl⟩
  have F0 : 0 ≤ F := hF ▸ Real.sqrt_nonneg _
  have H0 : 0 ≤ H := hH ▸ Real.sqrt_nonneg _
  have FF : F ^ 2 = ∑ i, ∑ l, ‖a i l‖ ^ 2 := by rw [hF]; exact Real.sq_sqrt (by positivity)
  have HH : H ^ 2 = ∑ l, ‖h l‖ ^ 2 := by rw [hH]; exact Real.sq_sqrt (by positivity)
  have w1 : ∀ _ : Fin 3, (0 : ℝ) ≤ 1 := fun _ => zero_le_one
  have d1 : Real.sqrt (∑ i, ∑ l, ‖a' i l - a i l‖ ^ 2) ≤ κ * F :=
    Real.sqrt_le_iff.2 ⟨mul_nonneg hκ F0, by rw [mul_pow, FF]; exact ha⟩
  have d2 : Real.sqrt (∑ i, ∑ l, ‖a' i l‖ ^ 2) ≤ (1 + κ) * F := by
    have t := wnorm_le_add (w := fun _ : Fin 3 × Fin 3 => (1 : ℝ)) (fun _ => zero_le_one) (fun p => a' p.1 p.2) (fun p => a p.1 p.2)
    rw [← frob_eq a', ← frob_eq a, ← frob_eq fun i l => a' i l - a i l, ← hF] at t
    linarith
  have cs : ∀ b : Fin 3 → Fin 3 → ℂ, ∑ i, (∑ l, ‖b i l‖ * ‖h l‖) ^ 2 ≤ (Real.sqrt (∑ i, ∑ l, ‖b i l‖ ^ 2) * H) ^ 2 := by
    intro b
    rw [mul_pow, Real.sq_sqrt (by positivity), HH, Finset.sum_mul]
    exact Finset.sum_le_sum fun i _ => Finset.sum_mul_sq_le_sq_mul_sq _ _ _
  have p1 : wnorm (fun _ : Fin 3 => (1 : ℝ)) (fun i => g i - ∑ l, a' i l * h l) ≤ ε * ((1 + κ) * F * H) := by
    refine wnorm_le_of_sq (by positivity) ?_
    have t : ∀ i, (1 : ℝ) * ‖g i - ∑ l, a' i l * h l‖ ^ 2 ≤ ε ^ 2 * (∑ l, ‖a' i l‖ * ‖h l‖) ^ 2 := fun i => by
      rw [one_mul, ← mul_pow]
      exact pow_le_pow_left₀ (norm_nonneg _) (hg i) 2
    refine (Finset.sum_le_sum fun i _ => t i).trans ?_
    rw [← Finset.mul_sum, mul_pow]
    refine mul_le_mul_of_nonneg_left ((cs a').trans ?_) (sq_nonneg _)
    exact pow_le_pow_left₀ (by positivity) (mul_le_mul_of_nonneg_right d2 H0) 2
  have p2 : wnorm (fun _ : Fin 3 => (1 : ℝ)) (fun i => ∑ l, (a' i l - a i l) * h l) ≤ κ * F * H := by
    refine wnorm_le_of_sq (by positivity) ?_
    simp only [one_mul]
    refine (mulVec_sq_le _ _).trans ?_
    rw [mul_pow, mul_pow, FF, HH]
    exact mul_le_mul_of_nonneg_right ha (by positivity)
  have p3 : wnorm (fun _ : Fin 3 => (1 : ℝ)) (fun i => g i - ∑ l, a i l * h l) ≤ ((1 + κ) * (1 + ε) - 1) * (F * H) := by
    have t := wnorm_add_le w1 (fun i => g i - ∑ l, a' i l * h l) (fun i => ∑ l, (a' i l - a i l) * h l)
    have e : (fun i => (g i - ∑ l, a' i l * h l) + ∑ l, (a' i l - a i l) * h l) = fun i => g i - ∑ l, a i l * h l := by
      funext i
      simp only [sub_mul, Finset.sum_sub_distrib]
      ring
    rw [e] at t
    have : ε * ((1 + κ) * F * H) + κ * F * H = ((1 + κ) * (1 + ε) - 1) * (F * H) := by ring
    linarith
  have q := pow_le_pow_left₀ (wnorm_nonneg _ _) p3 2
  rw [wnorm_sq w1, mul_pow, mul_pow F, FF, HH] at q
  simpa using q

/-- **C141** One call of the sampler in floating point arithmetic.  Let the computed `Spectrum_half` differ from the exact one by at
most `κ` in relative Frobenius norm at every wavevector, and let the transforms, the products and the division be accurate to `η`,
`ε` and `ν`.  Then the returned field differs from the exact one, in the Euclidean norm over all points and components, by at most
`(1 + η)² (1 + κ) (1 + ε) (1 + ν) - 1` times a bound on the norm of the field: the largest Frobenius norm `M` of the kernel, times the
norm of the noise, over the square root of the cell volume `norm² / voxels`. -/
theorem C141_field {S Sh : Box n1 n2 n3 → Matrix (Fin 3) (Fin 3) ℂ} {norm : ℝ} {noise : Box n1 n2 n3 → Fin 3 → ℝ} {η κ ε ν M : ℝ}
    (hη : 0 ≤ η) (hκ : 0 ≤ κ) (hε : 0 ≤ ε) (hν : 0 ≤ ν) (hM : 0 ≤ M) (hS : ∀ k, ∑ i, ∑ l, ‖S k i l‖ ^ 2 ≤ M ^ 2)
    (hSh : ∀ k, ∑ i, ∑ l, ‖Sh k i l - spectrumHalf S k i l‖ ^ 2 ≤ κ ^ 2 * ∑ i, ∑ l, ‖spectrumHalf S k i l‖ ^ 2)
    {y : Box n1 n2 n3 → Fin 3 → ℝ} (hy : VfRounded Sh norm noise η ε ν y) :
    let bound := M * Real.sqrt (∑ x, ∑ i, noise x i ^ 2) / (|norm| / Real.sqrt (voxels n1 n2 n3))
    Real.sqrt (∑ x, ∑ i, vfSample S norm noise x i ^ 2) ≤ bound ∧
    Real.sqrt (∑ x, ∑ i, (y x i - vfSample S norm noise x i) ^ 2) ≤ ((1 + η) ^ 2 * (1 + κ) * (1 + ε) * (1 + ν) - 1) * bound := by
  obtain ⟨h, g, z, h1, h2, h3, h4⟩ := hy
  have h2' : ∀ k, ∑ i, ‖g k i - ∑ l, spectrumHalf S k i l * h k l‖ ^ 2 ≤
      ((1 + κ) * (1 + ε) - 1) ^ 2 * ((∑ i, ∑ l, ‖spectrumHalf S k i l‖ ^ 2) * ∑ l, ‖h k l‖ ^ 2) := fun k =>
    product_error hκ hε (hSh k) (h2 k)
  have hk : 0 ≤ (1 + κ) * (1 + ε) - 1 := by nlinarith [mul_nonneg hκ hε]
  have r := vf_error hη hk hν hM hS h1 h2' h3 h4
  refine ⟨r.1, r.2.trans (le_of_eq ?_)⟩
  ring

/-- Perturbation of the prefactor of the von Karman kernel by errors of the wavenumbers. -/
theorem vkC_freq {L E0 a : ℝ} (hL : 0 < L) {k q : K3} (h1 : LogNear a k.k1 q.k1) (h2 : LogNear a k.k2 q.k2) (h3 : LogNear a k.k3 q.k3) :
    LogNear (3 * a) (vkC L E0 k) (vkC L E0 q) := by
  have a0 := h1.nonneg
  have s1 := (h1.mul h1).add (h2.mul h2) (mul_self_nonneg _) (mul_self_nonneg _)
  have s2 := s1.add (h3.mul h3) (add_nonneg (mul_self_nonneg _) (mul_self_nonneg _)) (mul_self_nonneg _)
  have s3 := (LogNear.refl (L ^ 2)).mul s2
  rw [zero_add] at s3
  have kk0 : 0 ≤ k.k1 * k.k1 + k.k2 * k.k2 + k.k3 * k.k3 :=
    add_nonneg (add_nonneg (mul_self_nonneg _) (mul_self_nonneg _)) (mul_self_nonneg _)
  have s4 := ((LogNear.refl 1).mono (by linarith : (0 : ℝ) ≤ a + a)).add s3 zero_le_one (by positivity)
  have s5 := s4.rpow (by positivity) (17 / 6)
  have s6 := ((LogNear.refl (E0 * L ^ (17 / 3 : ℝ) / (4 * Real.pi))).div s5).sqrt
  unfold vkC
  refine s6.mono ?_
  rw [abs_of_pos (by norm_num)]
  linarith

theorem freq_sq_le {t : ℝ} (ht : 0 ≤ t) : t / (1 + t) ^ (17 / 6 : ℝ) ≤ 1 := by
  have h1 : (1 : ℝ) ≤ 1 + t := by linarith
  rw [div_le_one (by positivity)]
  calc t ≤ (1 + t) ^ (1 : ℝ) := by rw [Real.rpow_one]; linarith
    _ ≤ _ := Real.rpow_le_rpow_of_exponent_le h1 (by norm_num)

theorem vk_const_fin {L E0 : ℝ} (hL : 0 < L) (hE : 0 ≤ E0) (k : K3) :
    kernelConst L E0 (fin (k.k1 ^ 2 + k.k2 ^ 2 + k.k3 ^ 2)) = fin (vkC L E0 k) := by
  rw [kernelConst_fin hL hE (by positivity)]
  unfold vkC constR
  simp only [pow_two]

/-- The spectrum of the von Karman kernel is bounded. -/
theorem vk_spectrum_le {L E0 L1 L2 L3 : ℝ} (hL : 0 < L) (hE : 0 ≤ E0) (k : Box n1 n2 n3) :
    ∑ i, ∑ l, ‖spectrumOf (GenKernel.vk L E0).eval L1 L2 L3 k i l‖ ^ 2 ≤
      Real.sqrt (E0 * L ^ (11 / 3 : ℝ) / (2 * Real.pi)) ^ 2 := by
  have hcon := vk_const_fin hL hE
  rw [Real.sq_sqrt (by positivity)]
  obtain ⟨p, hp⟩ : ∃ p, p = freqOf L1 L2 L3 k := ⟨_, rfl⟩
  have hn : ∀ x : ℝ, ‖Complex.I * (x : ℂ)‖ ^ 2 = x ^ 2 := by
    intro x
    rw [norm_mul, Complex.norm_I, one_mul, Complex.norm_real, Real.norm_eq_abs, sq_abs]
  unfold spectrumOf times1j GenKernel.eval vkKernel
  simp only [← hp, hcon, hn, Fin.sum_univ_three, crossMat]
  simp only [neg_fin, fin_mul_fin, toReal_fin]
  have hsq : vkC L E0 p ^ 2 = E0 * L ^ (17 / 3 : ℝ) / (4 * Real.pi) /
      (1 + L ^ 2 * (p.k1 * p.k1 + p.k2 * p.k2 + p.k3 * p.k3)) ^ (17 / 6 : ℝ) := by
    unfold vkC
    have : 0 ≤ p.k1 * p.k1 + p.k2 * p.k2 + p.k3 * p.k3 :=
      add_nonneg (add_nonneg (mul_self_nonneg _) (mul_self_nonneg _)) (mul_self_nonneg _)
    exact Real.sq_sqrt (by positivity)
  obtain ⟨κ, hκ⟩ : ∃ κ, κ = p.k1 * p.k1 + p.k2 * p.k2 + p.k3 * p.k3 := ⟨_, rfl⟩
  have κ0 : 0 ≤ κ := by
    rw [hκ]; exact add_nonneg (add_nonneg (mul_self_nonneg _) (mul_self_nonneg _)) (mul_self_nonneg _)
  have hf := freq_sq_le (t := L ^ 2 * κ) (by positivity)
  have hL' : L ^ (17 / 3 : ℝ) = L ^ (11 / 3 : ℝ) * L ^ 2 := by
    rw [← Real.rpow_natCast, ← Real.rpow_add hL]; norm_num
  have tot : 2 * κ * vkC L E0 p ^ 2 ≤ E0 * L ^ (11 / 3 : ℝ) / (2 * Real.pi) := by
    rw [hsq, ← hκ, hL']
    have : 2 * κ * (E0 * (L ^ (11 / 3 : ℝ) * L ^ 2) / (4 * Real.pi) / (1 + L ^ 2 * κ) ^ (17 / 6 : ℝ)) =
        E0 * L ^ (11 / 3 : ℝ) / (2 * Real.pi) * (L ^ 2 * κ / (1 + L ^ 2 * κ) ^ (17 / 6 : ℝ)) := by
      field_simp
      ring
    rw [this]
    exact mul_le_of_le_one_right (by positivity) hf
  refine le_trans (le_of_eq ?_) tot
  rw [hκ]
  ring

/-- **C141** The von Karman generator: with frequencies of relative accuracy `exp a - 1` and the kernel computed as in C136, the error
of the sampled field is at most `(1 + η)² exp((24 + 5R) e + 4a) (1 + ε) (1 + ν) - 1` times
`√(E0 L^(11/3) / (2π))`, the norm of the noise, over the square root of the cell volume. -/
theorem C141_vk (A : Fmt) (he : A.e ≤ 1) {L E0 R a L1 L2 L3 norm η ε ν : ℝ} (hL : 0 < L) (hE : 0 ≤ E0) (hη : 0 ≤ η) (hε : 0 ≤ ε)
    (hν : 0 ≤ ν) (h1 : |Real.log L| ≤ R) {q : Box n1 n2 n3 → K3}
    (hq : ∀ k, LogNear a (freqOf L1 L2 L3 k).k1 (q k).k1 ∧ LogNear a (freqOf L1 L2 L3 k).k2 (q k).k2 ∧
      LogNear a (freqOf L1 L2 L3 k).k3 (q k).k3)
    (h2 : ∀ k, Real.log (1 + L ^ 2 * ((q k).k1 * (q k).k1 + (q k).k2 * (q k).k2 + (q k).k3 * (q k).k3)) ≤ R)
    {noise y : Box n1 n2 n3 → Fin 3 → ℝ} (hy : VfRounded (A.vkHalf L E0 q) norm noise η ε ν y) :
    Real.sqrt (∑ x, ∑ i, (y x i - vfSample (spectrumOf (GenKernel.vk L E0).eval L1 L2 L3) norm noise x i) ^ 2) ≤
      ((1 + η) ^ 2 * Real.exp ((24 + 5 * R) * A.e + 4 * a) * (1 + ε) * (1 + ν) - 1) *
        (Real.sqrt (E0 * L ^ (11 / 3 : ℝ) / (2 * Real.pi)) * Real.sqrt (∑ x, ∑ i, noise x i ^ 2) /
          (|norm| / Real.sqrt (voxels n1 n2 n3))) := by
  have e0 := A.e_nonneg
  have R0 := (abs_nonneg _).trans h1
  have a0 : 0 ≤ a := (hq 0).1.nonneg
  obtain ⟨c, hc⟩ : ∃ c, c = (24 + 5 * R) * A.e + 4 * a := ⟨_, rfl⟩
  have c0 : 0 ≤ c := by rw [hc]; positivity
  have hx : 0 ≤ Real.exp c - 1 := by linarith [Real.one_le_exp c0]
  -- the exact kernel
  have hcon := vk_const_fin hL hE
  have ent : ∀ (k : Box n1 n2 n3) (i l : Fin 3), ∃ x x' : ℝ, LogNear ((22 + 5 * R) * A.e + 4 * a) x x' ∧
      spectrumOf (GenKernel.vk L E0).eval L1 L2 L3 k i l = Complex.I * (x : ℂ) ∧ A.vkMat L E0 (q k) i l = x' := by
    intro k i l
    obtain ⟨p, hp⟩ : ∃ p, p = freqOf L1 L2 L3 k := ⟨_, rfl⟩
    obtain ⟨q1, q2, q3⟩ := hq k
    rw [← hp] at q1 q2 q3
    have f1 := vkC_freq (E0 := E0) hL q1 q2 q3
    have f2 := f1.trans (vkConst_near (A := A) (E0 := E0) hL (q k) he h1 (h2 k))
    have pos : ∀ {t t' : ℝ}, LogNear a t t' → LogNear ((22 + 5 * R) * A.e + 4 * a) (vkC L E0 p * t) (A.mul (A.vkConst L E0 (q k)) t') :=
      fun ht => (A.mul_near f2 ht).mono (le_of_eq (by ring))
    have neg : ∀ {t t' : ℝ}, LogNear a t t' → LogNear ((22 + 5 * R) * A.e + 4 * a) (-vkC L E0 p * t) (A.mul (-A.vkConst L E0 (q k)) t') :=
      fun ht => (A.mul_near f2.neg ht).mono (le_of_eq (by ring))
    have z : LogNear ((22 + 5 * R) * A.e + 4 * a) 0 0 := (LogNear.refl 0).mono (by positivity)
    unfold spectrumOf times1j GenKernel.eval vkKernel
    simp only [← hp, hcon]
    fin_cases i <;> fin_cases l
    · exact ⟨0, 0, z, rfl, rfl⟩
    · exact ⟨_, _, neg q3, rfl, rfl⟩
    · exact ⟨_, _, pos q2, rfl, rfl⟩
    · exact ⟨_, _, pos q3, rfl, rfl⟩
    · exact ⟨0, 0, z, rfl, rfl⟩
    · exact ⟨_, _, neg q1, rfl, rfl⟩
    · exact ⟨_, _, neg q2, rfl, rfl⟩
    · exact ⟨_, _, pos q1, rfl, rfl⟩
    · exact ⟨0, 0, z, rfl, rfl⟩
  have hSh : ∀ (k : Box n1 n2 n3), ∑ i, ∑ l, ‖A.vkHalf L E0 q k i l - spectrumHalf (spectrumOf (GenKernel.vk L E0).eval L1 L2 L3) k i l‖ ^ 2
      ≤ (Real.exp c - 1) ^ 2 * ∑ i, ∑ l, ‖spectrumHalf (spectrumOf (GenKernel.vk L E0).eval L1 L2 L3) k i l‖ ^ 2 := by
    intro k
    rw [Finset.mul_sum]
    refine Finset.sum_le_sum fun i _ => ?_
    rw [Finset.mul_sum]
    refine Finset.sum_le_sum fun l _ => ?_
    obtain ⟨x, x', hxx, e1, e2⟩ := ent k i l
    have hs := A.mul_near hxx (A.sqrt_near (LogNear.refl (voxels n1 n2 n3 : ℝ)))
    have hs' := (hs.mono (b := c) (le_of_eq (by rw [hc]; ring))).sub_le
    unfold spectrumHalf Fmt.vkHalf
    rw [e1, e2]
    have e3 : Complex.I * ((A.mul x' (A.sqrt (voxels n1 n2 n3 : ℝ)) : ℝ) : ℂ) - Complex.I * (x : ℂ) * (Real.sqrt (voxels n1 n2 n3) : ℂ) =
        Complex.I * ((A.mul x' (A.sqrt (voxels n1 n2 n3 : ℝ)) - x * Real.sqrt (voxels n1 n2 n3) : ℝ) : ℂ) := by
      push_cast; ring
    have e4 : Complex.I * (x : ℂ) * (Real.sqrt (voxels n1 n2 n3) : ℂ) = Complex.I * ((x * Real.sqrt (voxels n1 n2 n3) : ℝ) : ℂ) := by
      push_cast; ring
    rw [e3, e4, norm_mul, norm_mul, Complex.norm_I, one_mul, one_mul, Complex.norm_real, Complex.norm_real, ← mul_pow]
    refine pow_le_pow_left₀ (norm_nonneg _) ?_ 2
    rw [Real.norm_eq_abs, Real.norm_eq_abs, mul_comm (Real.exp c - 1)]
    exact hs'
  have := (C141_field hη hx hε hν (Real.sqrt_nonneg _) (vk_spectrum_le hL hE) hSh hy).2
  rw [← hc]
  have e : (1 + η) ^ 2 * (1 + (Real.exp c - 1)) * (1 + ε) * (1 + ν) = (1 + η) ^ 2 * Real.exp c * (1 + ε) * (1 + ν) := by ring
  rwa [e] at this

/-- **C141** Division of a block by its root mean square, as in `_normalize_block`: an error `Δ` of the block (Euclidean norm) becomes at
most `2 Δ / σ`, with `σ` the exact root mean square. -/
theorem C141_normalised {ι : Type*} [Fintype ι] {f f' : ι → ℝ} {Δ : ℝ} (h : Real.sqrt (∑ i, (f' i - f i) ^ 2) ≤ Δ) :
    let σ := Real.sqrt ((∑ i, f i ^ 2) / Fintype.card ι)
    let σ' := Real.sqrt ((∑ i, f' i ^ 2) / Fintype.card ι)
    0 < σ → 0 < σ' → Real.sqrt (∑ i, (f' i / σ' - f i / σ) ^ 2) ≤ 2 * Δ / σ := by
  intro σ σ' hσ hσ'
  have w1 : ∀ _ : ι, (0 : ℝ) ≤ 1 := fun _ => zero_le_one
  have nf : ∀ g : ι → ℝ, Real.sqrt (∑ i, g i ^ 2) = wnorm (fun _ => (1 : ℝ)) g := by
    intro g
    unfold wnorm
    simp
  obtain ⟨n, hn⟩ : ∃ n, n = Real.sqrt (Fintype.card ι) := ⟨_, rfl⟩
  have n0 : 0 < n := by
    rw [hn]
    refine Real.sqrt_pos.2 ?_
    by_contra h0
    have hz : (Fintype.card ι : ℝ) = 0 := le_antisymm (not_lt.1 h0) (Nat.cast_nonneg _)
    have : σ = 0 := by
      change Real.sqrt ((∑ i, f i ^ 2) / Fintype.card ι) = 0
      rw [hz, div_zero, Real.sqrt_zero]
    exact hσ.ne' this
  have s1 : wnorm (fun _ => (1 : ℝ)) f = σ * n := by
    rw [← nf, hn]
    change _ = Real.sqrt ((∑ i, f i ^ 2) / Fintype.card ι) * _
    rw [Real.sqrt_div' _ (Nat.cast_nonneg _), ← hn, div_mul_cancel₀ _ n0.ne']
  have s2 : wnorm (fun _ => (1 : ℝ)) f' = σ' * n := by
    rw [← nf, hn]
    change _ = Real.sqrt ((∑ i, f' i ^ 2) / Fintype.card ι) * _
    rw [Real.sqrt_div' _ (Nat.cast_nonneg _), ← hn, div_mul_cancel₀ _ n0.ne']
  rw [nf] at h
  have hrev : wnorm (fun _ => (1 : ℝ)) (fun i => f i - f' i) = wnorm (fun _ => (1 : ℝ)) (fun i => f' i - f i) := by
    unfold wnorm
    congr 1
    exact Finset.sum_congr rfl fun i _ => by rw [norm_sub_rev]
  have t1 := wnorm_le_add w1 f' f
  have t2 := wnorm_le_add w1 f f'
  rw [hrev] at t2
  rw [s1, s2] at t1 t2
  have hd : |σ - σ'| * n ≤ Δ := by
    rw [← abs_of_pos n0, ← abs_mul, abs_le]
    constructor <;> linarith
  have scale : ∀ (c : ℝ) (g : ι → ℝ), wnorm (fun _ => (1 : ℝ)) (fun i => c * g i) = |c| * wnorm (fun _ => (1 : ℝ)) g := by
    intro c g
    rw [← nf, ← nf, ← Real.sqrt_sq_eq_abs, ← Real.sqrt_mul (sq_nonneg _), Finset.mul_sum]
    congr 1
    exact Finset.sum_congr rfl fun i _ => mul_pow _ _ _
  rw [nf]
  have e : (fun i => f' i / σ' - f i / σ) = fun i => ((σ - σ') / (σ' * σ)) * f' i + (1 / σ) * (f' i - f i) := by
    funext i
    field_simp
    ring
  rw [e]
  refine (wnorm_add_le w1 _ _).trans ?_
  rw [scale, scale, s2, abs_div, abs_of_pos (mul_pos hσ' hσ), abs_of_pos (by positivity : (0 : ℝ) < 1 / σ)]
  have e2 : |σ - σ'| / (σ' * σ) * (σ' * n) = |σ - σ'| * n / σ := by field_simp
  rw [e2, one_div, inv_mul_eq_div, ← add_div]
  exact div_le_div_of_nonneg_right (by linarith) hσ.le

/-- Non-trivial case: exact transforms and products, and a division rounded up by `2^-24`. -/
example (S : Box n1 n2 n3 → Matrix (Fin 3) (Fin 3) ℂ) (norm : ℝ) (noise : Box n1 n2 n3 → Fin 3 → ℝ) :
    VfRounded (spectrumHalf S) norm noise 0 0 (2 ^ (-24 : ℤ)) fun x i => vfSample S norm noise x i * (1 + 2 ^ (-24 : ℤ)) := by
  refine ⟨fun k l => fftn (fun x => (noise x l : ℂ)) k, fun k i => vfY S noise i k, fun x i => irfftn (vfY S noise i) x, ?_, ?_, ?_, ?_⟩
  · simp [halfEnergy]
  · intro k i
    simp [vfY, noiseHat]
  · simp
  · intro x i
    beta_reduce
    rw [vfSample_eq, mul_add, mul_one, add_sub_cancel_left, abs_mul, mul_comm, abs_of_pos (by positivity : (0 : ℝ) < 2 ^ (-24 : ℤ))]

/-- The von Karman case with exact frequencies and any format: a field is computed whatever the spectrum. -/
example (A : Fmt) (L E0 L1 L2 L3 norm : ℝ) (noise : Box n1 n2 n3 → Fin 3 → ℝ) :
    (∀ k : Box n1 n2 n3, LogNear 0 (freqOf L1 L2 L3 k).k1 (freqOf L1 L2 L3 k).k1) ∧
    ∃ y, VfRounded (A.vkHalf L E0 (freqOf L1 L2 L3)) norm noise 0 0 0 y := by
  let h : Box n1 n2 n3 → Fin 3 → ℂ := fun k l => fftn (fun x => (noise x l : ℂ)) k
  let g : Box n1 n2 n3 → Fin 3 → ℂ := fun k i => ∑ l, A.vkHalf L E0 (freqOf L1 L2 L3) k i l * h k l
  refine ⟨fun k => LogNear.refl _, fun x i => irfftn (fun k => g k i) x / norm, h, g, fun x i => irfftn (fun k => g k i) x,
    ?_, fun k i => ?_, ?_, fun x i => ?_⟩ <;> simp [halfEnergy, h, g]

end box
end
end Verif
