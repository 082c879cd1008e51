import Verif.Props.Covariance
import Verif.Props.GeneratorNoise
import Mathlib.Analysis.SpecialFunctions.Trigonometric.Bounds
import Mathlib.Analysis.SpecialFunctions.ExpDeriv

/-!
# Sums of plane waves, their divergence and its central differences
-/

namespace Verif
open Fl

noncomputable section
open Classical

/-! ### Plane waves in space -/

/-- Component `i` at `x` of the real part of a finite sum of plane waves with wavevectors `κ t` and vector amplitudes `A t`. -/
def Spec.waves {ι : Type} [Fintype ι] (κ : ι → Fin 3 → ℝ) (A : ι → Fin 3 → ℂ) (x : Fin 3 → ℝ) (i : Fin 3) : ℝ :=
  ∑ t, (A t i * Complex.exp (Complex.I * ((∑ m, κ t m * x m : ℝ) : ℂ))).re

/-- A vector field with partial derivatives `∂_m u_m` that sum to zero everywhere. -/
def Spec.DivergenceFree (u : (Fin 3 → ℝ) → Fin 3 → ℝ) : Prop :=
  ∃ D : (Fin 3 → ℝ) → Fin 3 → ℝ, (∀ x m, HasDerivAt (fun s => u (Function.update x m s) m) (D x m) (x m)) ∧ ∀ x, ∑ m, D x m = 0

section
variable {ι : Type} [Fintype ι]

theorem phase_update (κ : Fin 3 → ℝ) (x : Fin 3 → ℝ) (m : Fin 3) (s : ℝ) :
    ∑ l, κ l * Function.update x m s l = ∑ l, κ l * x l + κ m * (s - x m) := by
  rw [← Finset.add_sum_erase Finset.univ (fun l => κ l * Function.update x m s l) (Finset.mem_univ m),
    ← Finset.add_sum_erase Finset.univ (fun l => κ l * x l) (Finset.mem_univ m)]
  have : ∑ l ∈ Finset.univ.erase m, κ l * Function.update x m s l = ∑ l ∈ Finset.univ.erase m, κ l * x l :=
    Finset.sum_congr rfl fun l hl => by rw [Function.update_of_ne (Finset.ne_of_mem_erase hl)]
  rw [this, Function.update_self]
  ring

theorem waves_update (κ : ι → Fin 3 → ℝ) (A : ι → Fin 3 → ℂ) (x : Fin 3 → ℝ) (m : Fin 3) (s : ℝ) :
    Spec.waves κ A (Function.update x m s) m = ∑ t, (A t m * Complex.exp (Complex.I * ((∑ l, κ t l * x l : ℝ) : ℂ)) *
      Complex.exp (Complex.I * ((κ t m * (s - x m) : ℝ) : ℂ))).re := by
  unfold Spec.waves
  refine Finset.sum_congr rfl fun t _ => ?_
  rw [phase_update, Complex.ofReal_add, mul_add, Complex.exp_add, mul_assoc]

theorem waves_solenoidal {κ : ι → Fin 3 → ℝ} {A : ι → Fin 3 → ℂ} (h : ∀ t, ∑ m, (κ t m : ℂ) * A t m = 0) :
    Spec.DivergenceFree (Spec.waves κ A) := by
  refine ⟨fun x m => ∑ t, (A t m * Complex.exp (Complex.I * ((∑ l, κ t l * x l : ℝ) : ℂ)) * (Complex.I * κ t m)).re,
    fun x m => ?_, fun x => ?_⟩
  · simp only [waves_update]
    refine HasDerivAt.fun_sum fun t _ => ?_
    have h1 : HasDerivAt (fun s : ℝ => ((κ t m * (s - x m) : ℝ) : ℂ)) ((κ t m : ℝ) : ℂ) (x m) := by
      have : HasDerivAt (fun s : ℝ => κ t m * (s - x m)) (κ t m * 1) (x m) :=
        ((hasDerivAt_id (x m)).sub_const _).const_mul _
      rw [mul_one] at this
      exact this.ofReal_comp
    have h2 : HasDerivAt (fun s : ℝ => Complex.exp (Complex.I * ((κ t m * (s - x m) : ℝ) : ℂ)))
        (Complex.I * κ t m) (x m) := by
      have := (h1.const_mul Complex.I).cexp
      simpa using this
    have h3 := h2.const_mul (A t m * Complex.exp (Complex.I * ((∑ l, κ t l * x l : ℝ) : ℂ)))
    exact (Complex.reCLM.hasFDerivAt.comp_hasDerivAt (x m) h3)
  · rw [Finset.sum_comm]
    refine Finset.sum_eq_zero fun t _ => ?_
    rw [← Complex.re_sum]
    have : ∑ m, A t m * Complex.exp (Complex.I * ((∑ l, κ t l * x l : ℝ) : ℂ)) * (Complex.I * κ t m) =
        Complex.exp (Complex.I * ((∑ l, κ t l * x l : ℝ) : ℂ)) * Complex.I * ∑ m, (κ t m : ℂ) * A t m := by
      rw [Finset.mul_sum]
      exact Finset.sum_congr rfl fun m _ => by ring
    rw [this, h t, mul_zero, Complex.zero_re]

theorem exp_sub_exp (φ : ℝ) : Complex.exp (Complex.I * (φ : ℂ)) - Complex.exp (Complex.I * ((-φ : ℝ) : ℂ)) =
    2 * Complex.I * (Real.sin φ : ℂ) := by
  rw [mul_comm Complex.I, mul_comm Complex.I, Complex.exp_mul_I, Complex.exp_mul_I, Complex.ofReal_neg, Complex.cos_neg, Complex.sin_neg,
    Complex.ofReal_sin]
  ring

/-- Central difference of a component in its own direction. -/
theorem waves_central (κ : ι → Fin 3 → ℝ) (A : ι → Fin 3 → ℂ) (x : Fin 3 → ℝ) (m : Fin 3) (h : ℝ) :
    (Spec.waves κ A (Function.update x m (x m + h)) m - Spec.waves κ A (Function.update x m (x m - h)) m) / (2 * h) =
      ∑ t, (A t m * Complex.exp (Complex.I * ((∑ l, κ t l * x l : ℝ) : ℂ)) * (Complex.I * ((Real.sin (κ t m * h) / h : ℝ) : ℂ))).re := by
  rw [waves_update, waves_update, ← Finset.sum_sub_distrib, Finset.sum_div]
  refine Finset.sum_congr rfl fun t _ => ?_
  rw [← Complex.sub_re, ← mul_sub]
  have := exp_sub_exp (κ t m * h)
  rw [show κ t m * (x m + h - x m) = κ t m * h by ring, show κ t m * (x m - h - x m) = -(κ t m * h) by ring, this]
  have e : A t m * Complex.exp (Complex.I * ((∑ l, κ t l * x l : ℝ) : ℂ)) * (Complex.I * ((Real.sin (κ t m * h) / h : ℝ) : ℂ)) =
      (((1 / (2 * h) : ℝ)) : ℂ) * (A t m * Complex.exp (Complex.I * ((∑ l, κ t l * x l : ℝ) : ℂ)) *
        (2 * Complex.I * (Real.sin (κ t m * h) : ℂ))) := by
    by_cases h0 : h = 0
    · subst h0; simp
    · have : (h : ℂ) ≠ 0 := by exact_mod_cast h0
      push_cast
      field_simp
  rw [e, Complex.re_ofReal_mul]
  ring

theorem abs_sin_sub_self_le (φ : ℝ) : |Real.sin φ - φ| ≤ |φ| ^ 3 / 6 := by
  have pos : ∀ φ : ℝ, 0 ≤ φ → |Real.sin φ - φ| ≤ |φ| ^ 3 / 6 := by
    intro φ h
    rw [abs_of_nonneg h, abs_le]
    have h1 := Real.sin_ge_sub_cube h
    have h2 := Real.sin_le h
    have h3 : 0 ≤ φ ^ 3 / 6 := by positivity
    constructor <;> linarith
  rcases le_total 0 φ with h | h
  · exact pos φ h
  · have := pos (-φ) (by linarith)
    rw [Real.sin_neg, abs_neg, show -Real.sin φ - -φ = -(Real.sin φ - φ) by ring, abs_neg] at this
    exact this

/-- The divergence taken by central differences of a solenoidal sum of waves is of second order in the spacing. -/
theorem waves_central_bound {κ : ι → Fin 3 → ℝ} {A : ι → Fin 3 → ℂ} (hs : ∀ t, ∑ m, (κ t m : ℂ) * A t m = 0) {h : Fin 3 → ℝ}
    (hh : ∀ m, 0 < h m) (x : Fin 3 → ℝ) :
    |∑ m, (Spec.waves κ A (Function.update x m (x m + h m)) m - Spec.waves κ A (Function.update x m (x m - h m)) m) / (2 * h m)| ≤
      ∑ t, ∑ m, h m ^ 2 * |κ t m| ^ 3 * ‖A t m‖ / 6 := by
  simp only [waves_central]
  rw [Finset.sum_comm]
  refine (Finset.abs_sum_le_sum_abs _ _).trans (Finset.sum_le_sum fun t _ => ?_)
  rw [← Complex.re_sum]
  refine (Complex.abs_re_le_norm _).trans ?_
  obtain ⟨E, hE⟩ : ∃ E, E = Complex.exp (Complex.I * ((∑ l, κ t l * x l : ℝ) : ℂ)) := ⟨_, rfl⟩
  have hE1 : ‖E‖ = 1 := by rw [hE, mul_comm]; exact Complex.norm_exp_ofReal_mul_I _
  rw [← hE]
  have e : ∑ m, A t m * E * (Complex.I * ((Real.sin (κ t m * h m) / h m : ℝ) : ℂ)) =
      ∑ m, A t m * E * (Complex.I * ((Real.sin (κ t m * h m) / h m - κ t m : ℝ) : ℂ)) := by
    have z : ∑ m, A t m * E * (Complex.I * (κ t m : ℂ)) = 0 := by
      have : ∑ m, A t m * E * (Complex.I * κ t m) = E * Complex.I * ∑ m, (κ t m : ℂ) * A t m := by
        rw [Finset.mul_sum]
        exact Finset.sum_congr rfl fun m _ => by ring
      rw [this, hs t, mul_zero]
    rw [← sub_zero (∑ m, A t m * E * (Complex.I * ((Real.sin (κ t m * h m) / h m : ℝ) : ℂ))), ← z, ← Finset.sum_sub_distrib]
    exact Finset.sum_congr rfl fun m _ => by push_cast; ring
  rw [e]
  refine (norm_sum_le _ _).trans (Finset.sum_le_sum fun m _ => ?_)
  rw [norm_mul, norm_mul, norm_mul, hE1, Complex.norm_I, mul_one, one_mul, Complex.norm_real, Real.norm_eq_abs]
  have hp := hh m
  have h1 := abs_sin_sub_self_le (κ t m * h m)
  have h2 : Real.sin (κ t m * h m) / h m - κ t m = (Real.sin (κ t m * h m) - κ t m * h m) / h m := by field_simp
  rw [h2, abs_div, abs_of_pos hp]
  have h3 : |Real.sin (κ t m * h m) - κ t m * h m| / h m ≤ h m ^ 2 * |κ t m| ^ 3 / 6 := by
    rw [div_le_iff₀ hp]
    refine h1.trans (le_of_eq ?_)
    rw [abs_mul, abs_of_pos hp]
    ring
  calc ‖A t m‖ * (|Real.sin (κ t m * h m) - κ t m * h m| / h m) ≤ ‖A t m‖ * (h m ^ 2 * |κ t m| ^ 3 / 6) :=
        mul_le_mul_of_nonneg_left h3 (norm_nonneg _)
    _ = _ := by ring

end

/-! ### The sampled field -/

section
variable {n1 n2 n3 : ℕ} [NeZero n1] [NeZero n2] [NeZero n3]

/-- The sampled field at the grid points of a sub-block is the value of a sum of plane waves, solenoidal on grids of odd sizes. -/
theorem vfSample_waves {K : GenKernel} (hK : K.Valid) (o1 : Odd n1) (o2 : Odd n2) (o3 : Odd n3) {h : Fin 3 → ℝ} (hh : ∀ m, 0 < h m)
    (norm : ℝ) (noise : Box n1 n2 n3 → Fin 3 → ℝ) (s : ℝ) (q1 q2 q3 : ℕ) :
    ∃ (κ : Box n1 n2 n3 → Fin 3 → ℝ) (A : Box n1 n2 n3 → Fin 3 → ℂ),
      Function.Injective κ ∧ (∀ t m, |κ t m| < Real.pi / h m) ∧ (∀ t, ∑ m, (κ t m : ℂ) * A t m = 0) ∧
      ∀ (p1 p2 p3 : ℕ), q1 + p1 < n1 → q2 + p2 < n2 → q3 + p3 < n3 → ∀ i,
        vfSample (spectrumOf K.eval (h 0 * n1) (h 1 * n2) (h 2 * n3)) norm noise
          (((q1 + p1 : ℕ) : ZMod n1), ((q2 + p2 : ℕ) : ZMod n2), ((q3 + p3 : ℕ) : ZMod n3)) i / s =
        Spec.waves κ A ![h 0 * p1, h 1 * p2, h 2 * p3] i := by
  obtain ⟨u, hu⟩ : ∃ u : Fin 3 → Box n1 n2 n3 → ℂ, u = fun i x =>
    ((vfSample (spectrumOf K.eval (h 0 * n1) (h 1 * n2) (h 2 * n3)) norm noise x i : ℝ) : ℂ) := ⟨_, rfl⟩
  obtain ⟨κ, hκ⟩ : ∃ κ : Box n1 n2 n3 → Fin 3 → ℝ, κ = fun t => (freqOf (h 0 * n1) (h 1 * n2) (h 2 * n3) t).vec := ⟨_, rfl⟩
  refine ⟨κ, fun t i => fftn (u i) t / (voxels n1 n2 n3 : ℂ) / (s : ℂ) *
    Complex.exp (Complex.I * ((κ t 0 * (h 0 * q1) + κ t 1 * (h 1 * q2) + κ t 2 * (h 2 * q3) : ℝ) : ℂ)), ?_, ?_, ?_, ?_⟩
  · have inj : ∀ {n : ℕ} [NeZero n] {h : ℝ}, 0 < h → ∀ k l : ZMod n, 2 * Real.pi / (h * n) * fftIdx n k = 2 * Real.pi / (h * n) * fftIdx n l →
        k = l := by
      intro n _ h hp k l he
      have hn : (0 : ℝ) < n := by exact_mod_cast NeZero.pos n
      have hpi := Real.pi_pos
      have hne : 2 * Real.pi / (h * n) ≠ 0 := by positivity
      have : (fftIdx n k : ℝ) = fftIdx n l := mul_left_cancel₀ hne he
      have : fftIdx n k = fftIdx n l := by exact_mod_cast this
      have hc : ∀ j : ZMod n, ((fftIdx n j : ℤ) : ZMod n) = j := by
        intro j
        unfold fftIdx
        split_ifs <;> simp
      rw [← hc k, ← hc l, this]
    intro t t' he
    rw [hκ] at he
    exact Prod.ext (inj (hh 0) _ _ (congrFun he 0)) (Prod.ext (inj (hh 1) _ _ (congrFun he 1)) (inj (hh 2) _ _ (congrFun he 2)))
  · have lt : ∀ {n : ℕ} [NeZero n], Odd n → ∀ (k : ZMod n) {h : ℝ}, 0 < h → |2 * Real.pi / (h * n) * fftIdx n k| < Real.pi / h := by
      intro n _ ho k h hp
      have hr := fftIdx_range k hp
      have hn : (0 : ℝ) < n := by exact_mod_cast NeZero.pos n
      rw [abs_lt]
      refine ⟨lt_of_le_of_ne hr.1 fun he => ?_, hr.2⟩
      have hpi := Real.pi_pos
      have : -(n : ℝ) = 2 * fftIdx n k := by
        field_simp at he
        linarith
      have : -(n : ℤ) = 2 * fftIdx n k := by exact_mod_cast this
      obtain ⟨w, hw⟩ := ho
      omega
    intro t m
    rw [hκ]
    fin_cases m
    · exact lt o1 t.1 (hh 0)
    · exact lt o2 t.2.1 (hh 1)
    · exact lt o3 t.2.2 (hh 2)
  · intro t
    have := C62_divergence_free hK (h 0 * n1) (h 1 * n2) (h 2 * n3) norm noise (nonNyquist_of_odd o1 o2 o3 t)
    have e : ∀ m, (κ t m : ℂ) * (fftn (u m) t / (voxels n1 n2 n3 : ℂ) / (s : ℂ) *
        Complex.exp (Complex.I * ((κ t 0 * (h 0 * q1) + κ t 1 * (h 1 * q2) + κ t 2 * (h 2 * q3) : ℝ) : ℂ))) =
        ((freqOf (h 0 * n1) (h 1 * n2) (h 2 * n3) t).vec m : ℂ) * fftn (fun x =>
          ((vfSample (spectrumOf K.eval (h 0 * n1) (h 1 * n2) (h 2 * n3)) norm noise x m : ℝ) : ℂ)) t *
        (1 / (voxels n1 n2 n3 : ℂ) / (s : ℂ) *
        Complex.exp (Complex.I * ((κ t 0 * (h 0 * q1) + κ t 1 * (h 1 * q2) + κ t 2 * (h 2 * q3) : ℝ) : ℂ))) := by
      intro m
      rw [hu]
      simp only [hκ]
      ring
    rw [Finset.sum_congr rfl fun m _ => e m, ← Finset.sum_mul, this, zero_mul]
  · intro p1 p2 p3 hp1 hp2 hp3 i
    obtain ⟨x, hx⟩ : ∃ x : Box n1 n2 n3, x = (((q1 + p1 : ℕ) : ZMod n1), ((q2 + p2 : ℕ) : ZMod n2), ((q3 + p3 : ℕ) : ZMod n3)) := ⟨_, rfl⟩
    have inv := congrFun (ifftn_fftn (u i)) x
    have hre : vfSample (spectrumOf K.eval (h 0 * n1) (h 1 * n2) (h 2 * n3)) norm noise x i / s =
        (ifftn (fftn (u i)) x / (s : ℂ)).re := by
      rw [inv, hu, Complex.div_ofReal_re, Complex.ofReal_re]
    rw [← hx, hre]
    unfold ifftn Spec.waves
    rw [Finset.mul_sum, Finset.sum_div, Complex.re_sum]
    refine Finset.sum_congr rfl fun t _ => ?_
    congr 1
    have hw := (C81_wave (hh 0) (hh 1) (hh 2) t x 0).1
    rw [sub_zero] at hw
    have v1 : x.1.val = q1 + p1 := by rw [hx]; exact ZMod.val_natCast_of_lt hp1
    have v2 : x.2.1.val = q2 + p2 := by rw [hx]; exact ZMod.val_natCast_of_lt hp2
    have v3 : x.2.2.val = q3 + p3 := by rw [hx]; exact ZMod.val_natCast_of_lt hp3
    rw [hw]
    have e1 : ((freqOf (h 0 * n1) (h 1 * n2) (h 2 * n3) t).k1 * (h 0 * x.1.val - h 0 * (0 : Box n1 n2 n3).1.val) +
        (freqOf (h 0 * n1) (h 1 * n2) (h 2 * n3) t).k2 * (h 1 * x.2.1.val - h 1 * (0 : Box n1 n2 n3).2.1.val) +
        (freqOf (h 0 * n1) (h 1 * n2) (h 2 * n3) t).k3 * (h 2 * x.2.2.val - h 2 * (0 : Box n1 n2 n3).2.2.val) : ℝ) =
        (κ t 0 * (h 0 * q1) + κ t 1 * (h 1 * q2) + κ t 2 * (h 2 * q3)) + ∑ m, κ t m * (![h 0 * p1, h 1 * p2, h 2 * p3] : Fin 3 → ℝ) m := by
      rw [v1, v2, v3, hκ, Fin.sum_univ_three]
      simp only [Prod.fst_zero, Prod.snd_zero, ZMod.val_zero, K3.vec, Matrix.cons_val]
      push_cast
      ring
    rw [e1, Complex.ofReal_add, mul_add, Complex.exp_add]
    ring

/-! ### Some noise gives a non-zero divergence -/

theorem GenKernel.entry10 {K : GenKernel} (h : K.Valid) (he : K.Energetic) {k : K3} (h1 : k.k1 = 0) (hk : k.k3 ≠ 0) :
    times1j (K.eval k) 1 0 ≠ 0 := by
  have hkk : kkR k ≠ 0 := by
    unfold kkR
    have : 0 < k.k3 * k.k3 := mul_self_pos.2 hk
    nlinarith [mul_self_nonneg k.k1, mul_self_nonneg k.k2]
  have hker : ∀ b, kerR k b 1 0 = k.k3 := by
    intro b
    have : kerR k b 1 0 = k30R k b - (zc k b).2.1 * k.k2 := rfl
    rw [this, zc_k1_zero h1 hkk]
    unfold k30R
    rw [h1]
    ring
  unfold times1j
  refine mul_ne_zero Complex.I_ne_zero ?_
  cases K with
  | vk L E0 =>
    obtain ⟨hL, hE⟩ := h
    have hc := kernelConst_fin hL hE (kkR_nonneg k)
    have : GenKernel.eval (.vk L E0) k 1 0 = fin (constR L E0 (kkR k) * k.k3) := by
      simp only [GenKernel.eval, vkKernel, kkR_pow, hc, crossMat, fin_mul_fin]
    rw [this, toReal_fin]
    exact_mod_cast mul_ne_zero (constR_pos hL he (kkR_nonneg k)).ne' hk
  | mann hyp L E0 G =>
    obtain ⟨hL, hE, hh⟩ := h
    simp only [GenKernel.eval, mannKernel]
    rw [mannBeta_eq G hL hh, shearKernel_fin hL hE, toReal_fin, hker]
    exact_mod_cast mul_ne_zero (constR_pos hL he (kk0R_nonneg k _)).ne' hk
  | nn net L E0 G hr =>
    obtain ⟨hL, hE, hn, hh⟩ := h
    obtain ⟨b, hb⟩ := nnBeta_fin hn G hh k
    simp only [GenKernel.eval, nnKernel]
    rw [hb, shearKernel_fin hL hE, toReal_fin, hker]
    exact_mod_cast mul_ne_zero (constR_pos hL he (kk0R_nonneg k _)).ne' hk

/-- Divergence by central differences on the periodic grid. -/
def boxDiv (s1 s2 s3 : ℝ) (u : Box n1 n2 n3 → Fin 3 → ℝ) (x : Box n1 n2 n3) : ℝ :=
  (u (x + (1, 0, 0)) 0 - u (x + (-1, 0, 0)) 0) / (2 * s1) + (u (x + (0, 1, 0)) 1 - u (x + (0, -1, 0)) 1) / (2 * s2) +
    (u (x + (0, 0, 1)) 2 - u (x + (0, 0, -1)) 2) / (2 * s3)

theorem fftn_boxDiv (s1 s2 s3 : ℝ) (u : Box n1 n2 n3 → Fin 3 → ℝ) (k : Box n1 n2 n3) :
    fftn (fun x => ((boxDiv s1 s2 s3 u x : ℝ) : ℂ)) k =
      (wave k (1, 0, 0) - wave k (-1, 0, 0)) / (2 * s1) * fftn (fun x => ((u x 0 : ℝ) : ℂ)) k +
      (wave k (0, 1, 0) - wave k (0, -1, 0)) / (2 * s2) * fftn (fun x => ((u x 1 : ℝ) : ℂ)) k +
      (wave k (0, 0, 1) - wave k (0, 0, -1)) / (2 * s3) * fftn (fun x => ((u x 2 : ℝ) : ℂ)) k := by
  have sh : ∀ i e, ∑ x, ((u (x + e) i : ℝ) : ℂ) * wave (-k) x = wave k e * fftn (fun x => ((u x i : ℝ) : ℂ)) k := by
    intro i e
    rw [← fftn_shift]
    rfl
  rw [sub_div, sub_div, sub_div, sub_mul, sub_mul, sub_mul, div_mul_eq_mul_div, div_mul_eq_mul_div, div_mul_eq_mul_div, div_mul_eq_mul_div,
    div_mul_eq_mul_div, div_mul_eq_mul_div]
  rw [← sh 0 (1, 0, 0), ← sh 0 (-1, 0, 0), ← sh 1 (0, 1, 0), ← sh 1 (0, -1, 0), ← sh 2 (0, 0, 1), ← sh 2 (0, 0, -1)]
  rw [Finset.sum_div, Finset.sum_div, Finset.sum_div, Finset.sum_div, Finset.sum_div, Finset.sum_div, ← Finset.sum_sub_distrib,
    ← Finset.sum_sub_distrib, ← Finset.sum_sub_distrib, ← Finset.sum_add_distrib, ← Finset.sum_add_distrib]
  unfold fftn
  refine Finset.sum_congr rfl fun x _ => ?_
  unfold boxDiv
  push_cast
  ring

theorem boxDiv_ne {K : GenKernel} (h : K.Valid) (he : K.Energetic) (hn2 : 3 ≤ n2) (hn3 : 5 ≤ n3) {L1 L2 L3 norm : ℝ}
    (hL2 : L2 ≠ 0) (hL3 : L3 ≠ 0) (hnorm : norm ≠ 0) {s1 s2 s3 : ℝ} (hs2 : s2 ≠ 0) (hs3 : s3 ≠ 0) (x : Box n1 n2 n3) :
    ∃ noise, boxDiv s1 s2 s3 (vfSample (spectrumOf K.eval L1 L2 L3) norm noise) x ≠ 0 := by
  by_contra hall
  push Not at hall
  obtain ⟨S, hS⟩ : ∃ S : Box n1 n2 n3 → Matrix (Fin 3) (Fin 3) ℂ, S = spectrumOf K.eval L1 L2 L3 := ⟨_, rfl⟩
  rw [← hS] at hall
  have hz : ∀ noise y, boxDiv s1 s2 s3 (vfSample S norm noise) y = 0 := by
    intro noise y
    have := hall fun z => noise (z + (y - x))
    unfold boxDiv at this ⊢
    simp only [C61_shift] at this
    have e : ∀ v : Box n1 n2 n3, x + v + (y - x) = y + v := fun v => by abel
    simp only [e] at this
    exact this
  obtain ⟨δ, hδ⟩ : ∃ δ : Box n1 n2 n3 → Fin 3 → ℝ, δ = fun x l => if x = 0 ∧ l = 0 then (1 : ℝ) else 0 := ⟨_, rfl⟩
  have hpi := Real.pi_pos
  have hn2R : (0 : ℝ) < n2 := by exact_mod_cast (by omega : 0 < n2)
  have hn3R : (0 : ℝ) < n3 := by exact_mod_cast (by omega : 0 < n3)
  -- one mode
  have mode : ∀ m : ℕ, 0 < m → m ≤ 2 → Real.sin (2 * Real.pi / n2) / s2 * (2 * Real.pi / L3 * m) =
      Real.sin (2 * Real.pi * m / n3) / s3 * (2 * Real.pi / L2) := by
    intro m hm0 hm2
    obtain ⟨k, hk⟩ : ∃ k : Box n1 n2 n3, k = (0, 1, ((m : ℕ) : ZMod n3)) := ⟨_, rfl⟩
    have hv2 : ((1 : ZMod n2)).val = 1 := by
      have : Fact (1 < n2) := ⟨by omega⟩
      exact ZMod.val_one n2
    have hv3 : (((m : ℕ) : ZMod n3)).val = m := ZMod.val_natCast_of_lt (by omega)
    have i1 : fftIdx n1 k.1 = 0 := by rw [hk]; simp [fftIdx, NeZero.pos n1]
    have i2 : fftIdx n2 k.2.1 = 1 := by rw [hk]; unfold fftIdx; rw [hv2, if_pos (by omega)]; norm_num
    have i3 : fftIdx n3 k.2.2 = m := by rw [hk]; unfold fftIdx; rw [hv3, if_pos (by omega)]
    have hny : NonNyquist k := by
      rw [hk]
      refine ⟨?_, ?_, ?_⟩
      · simp only [ZMod.val_zero]; have := NeZero.ne n1; omega
      · simp only [hv2]; omega
      · simp only [hv3]; omega
    have fr : freqOf L1 L2 L3 k = ⟨0, 2 * Real.pi / L2, 2 * Real.pi / L3 * m⟩ := by
      unfold freqOf
      rw [i1, i2, i3]
      simp
    have hm : (m : ℝ) ≠ 0 := by exact_mod_cast hm0.ne'
    have hk3 : (freqOf L1 L2 L3 k).k3 ≠ 0 := by
      rw [fr]
      exact mul_ne_zero (div_ne_zero (by positivity) hL3) hm
    have hent : S k 1 0 ≠ 0 := by rw [hS]; exact K.entry10 h he (by rw [fr]) hk3
    -- transforms
    obtain ⟨û, hû⟩ : ∃ û : Fin 3 → ℂ, û = fun i => fftn (fun x => ((vfSample S norm δ x i : ℝ) : ℂ)) k := ⟨_, rfl⟩
    have hu1 : û 1 ≠ 0 := by
      rw [hû]
      simp only
      rw [fftn_vfSample, herm_of_hermitian (vfY_neg (by rw [hS]; exact spectrum_hermitian h hny) δ 1)]
      have hy : vfY S δ 1 k = S k 1 0 * (Real.sqrt (voxels n1 n2 n3) : ℂ) := by
        unfold vfY
        simp only [hδ, noiseHat_delta]
        rw [Finset.sum_eq_single (0 : Fin 3) (fun l _ hl => by rw [if_neg hl, mul_zero]) (by simp), if_pos rfl, mul_one]
        rfl
      rw [hy]
      have hv : (Real.sqrt (voxels n1 n2 n3) : ℂ) ≠ 0 := by
        have : (0 : ℝ) < voxels n1 n2 n3 := by exact_mod_cast voxels_pos
        exact_mod_cast (Real.sqrt_pos.2 this).ne'
      exact div_ne_zero (mul_ne_zero hent hv) (by exact_mod_cast hnorm)
    have hdf := C62_divergence_free h L1 L2 L3 norm δ hny
    rw [Fin.sum_univ_three, fr, ← hS] at hdf
    have hdf' : ((2 * Real.pi / L2 : ℝ) : ℂ) * û 1 + ((2 * Real.pi / L3 * m : ℝ) : ℂ) * û 2 = 0 := by
      rw [hû]
      simpa [K3.vec] using hdf
    have hdiv := fftn_boxDiv s1 s2 s3 (vfSample S norm δ) k
    simp only [hz] at hdiv
    have h0 : fftn (fun _ : Box n1 n2 n3 => ((0 : ℝ) : ℂ)) k = 0 := by unfold fftn; simp
    rw [h0] at hdiv
    -- waves
    have ch : ∀ {n : ℕ} [NeZero n] (j : ZMod n), (ZMod.stdAddChar j : ℂ) - ZMod.stdAddChar (-j) =
        2 * Complex.I * (Real.sin (2 * Real.pi * fftIdx n j / n) : ℂ) := by
      intro n _ j
      have hj : ((fftIdx n j : ℤ) : ZMod n) = j := by
        unfold fftIdx
        split_ifs <;> simp
      have hn : (n : ℂ) ≠ 0 := by exact_mod_cast NeZero.ne n
      conv_lhs => rw [← hj, ← Int.cast_neg, ZMod.stdAddChar_coe, ZMod.stdAddChar_coe]
      rw [← exp_sub_exp]
      congr 2
      · push_cast; ring
      · push_cast; ring
    have w1 : wave k (1, 0, 0) - wave k (-1, 0, 0) = 0 := by
      unfold wave; rw [hk]; simp
    have w2 : wave k (0, 1, 0) - wave k (0, -1, 0) = 2 * Complex.I * (Real.sin (2 * Real.pi / n2) : ℂ) := by
      have e1 : wave k (0, 1, 0) = ZMod.stdAddChar k.2.1 := by unfold wave; simp
      have e2 : wave k (0, -1, 0) = ZMod.stdAddChar (-k.2.1) := by unfold wave; simp
      rw [e1, e2, ch, i2]
      simp
    have w3 : wave k (0, 0, 1) - wave k (0, 0, -1) = 2 * Complex.I * (Real.sin (2 * Real.pi * m / n3) : ℂ) := by
      have e1 : wave k (0, 0, 1) = ZMod.stdAddChar k.2.2 := by unfold wave; simp
      have e2 : wave k (0, 0, -1) = ZMod.stdAddChar (-k.2.2) := by unfold wave; simp
      rw [e1, e2, ch, i3]
      simp
    rw [w1, w2, w3, zero_div, zero_mul, zero_add] at hdiv
    have hdiv' : ((Real.sin (2 * Real.pi / n2) / s2 : ℝ) : ℂ) * û 1 + ((Real.sin (2 * Real.pi * m / n3) / s3 : ℝ) : ℂ) * û 2 = 0 := by
      have hs2' : (s2 : ℂ) ≠ 0 := by exact_mod_cast hs2
      have hs3' : (s3 : ℂ) ≠ 0 := by exact_mod_cast hs3
      have : Complex.I * (((Real.sin (2 * Real.pi / n2) / s2 : ℝ) : ℂ) * û 1 + ((Real.sin (2 * Real.pi * m / n3) / s3 : ℝ) : ℂ) * û 2) = 0 := by
        rw [hdiv, hû]
        push_cast
        field_simp
      exact (mul_eq_zero.1 this).resolve_left Complex.I_ne_zero
    have key : (((Real.sin (2 * Real.pi / n2) / s2 * (2 * Real.pi / L3 * m) -
        Real.sin (2 * Real.pi * m / n3) / s3 * (2 * Real.pi / L2) : ℝ)) : ℂ) * û 1 = 0 := by
      generalize Real.sin (2 * Real.pi / n2) / s2 = a at hdiv' ⊢
      generalize Real.sin (2 * Real.pi * m / n3) / s3 = b at hdiv' ⊢
      generalize 2 * Real.pi / L3 * m = c at hdf' ⊢
      generalize 2 * Real.pi / L2 = d at hdf' ⊢
      push_cast
      linear_combination (c : ℂ) * hdiv' - (b : ℂ) * hdf'
    have := (mul_eq_zero.1 key).resolve_right hu1
    have : Real.sin (2 * Real.pi / n2) / s2 * (2 * Real.pi / L3 * m) -
        Real.sin (2 * Real.pi * m / n3) / s3 * (2 * Real.pi / L2) = 0 := by exact_mod_cast this
    linarith
  have m1 := mode 1 (by norm_num) (by norm_num)
  have m2 := mode 2 (by norm_num) (by norm_num)
  obtain ⟨θ, hθ⟩ : ∃ θ, θ = 2 * Real.pi / n3 := ⟨_, rfl⟩
  have a1 : 2 * Real.pi * (1 : ℕ) / n3 = θ := by rw [hθ]; push_cast; ring
  have a2 : 2 * Real.pi * (2 : ℕ) / n3 = 2 * θ := by rw [hθ]; push_cast; ring
  rw [a1] at m1
  rw [a2, Real.sin_two_mul] at m2
  have hθ0 : 0 < θ := by rw [hθ]; positivity
  have hθ1 : θ < Real.pi := by
    rw [hθ, div_lt_iff₀ hn3R]
    have : (5 : ℝ) ≤ n3 := by exact_mod_cast hn3
    nlinarith
  have hsin : 0 < Real.sin θ := Real.sin_pos_of_pos_of_lt_pi hθ0 hθ1
  have hcos : Real.cos θ < 1 := by
    have := Real.cos_lt_cos_of_nonneg_of_le_pi (le_refl 0) hθ1.le hθ0
    rwa [Real.cos_zero] at this
  push_cast at m1 m2
  have e3 : Real.sin θ / s3 * (2 * Real.pi / L2) * 2 = 2 * Real.sin θ * Real.cos θ / s3 * (2 * Real.pi / L2) := by
    rw [← m2, ← m1]; ring
  have e4 : (Real.sin θ / s3 * (2 * Real.pi / L2) * 2) * (1 - Real.cos θ) = 0 := by
    rw [mul_sub, mul_one]
    nth_rewrite 1 [e3]
    ring
  have nz : Real.sin θ / s3 * (2 * Real.pi / L2) * 2 ≠ 0 :=
    mul_ne_zero (mul_ne_zero (div_ne_zero hsin.ne' hs3) (div_ne_zero (by positivity) hL2)) two_ne_zero
  have := (mul_eq_zero.1 e4).resolve_left nz
  linarith

end
end
end Verif
