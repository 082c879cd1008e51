import Verif.Lemmas.TensorCont
import Mathlib.Analysis.Complex.Angle

/-! Bounds of the entries of the sheared kernel near the origin of wavevector space. -/

namespace Verif
open Fl Verif.Spec

noncomputable section

theorem unit_dist {U V : ℂ} (hU : U ≠ 0) (hV : V ≠ 0) : ‖U / ‖U‖ - V / ‖V‖‖ ≤ 2 * ‖U - V‖ / ‖U‖ := by
  have u0 : 0 < ‖U‖ := norm_pos_iff.2 hU
  have v0 : 0 < ‖V‖ := norm_pos_iff.2 hV
  have u1 : (‖U‖ : ℂ) ≠ 0 := by exact_mod_cast u0.ne'
  have v1 : (‖V‖ : ℂ) ≠ 0 := by exact_mod_cast v0.ne'
  have e : U / ‖U‖ - V / ‖V‖ = (U - V) / ‖U‖ + V / ‖V‖ * (((‖V‖ - ‖U‖ : ℝ) : ℂ) / ‖U‖) := by
    push_cast
    field_simp
    ring
  rw [e]
  refine (norm_add_le _ _).trans ?_
  rw [norm_div, norm_mul, norm_div, norm_div, Complex.norm_real, Complex.norm_real, Complex.norm_real, norm_norm, norm_norm,
    div_self v0.ne', one_mul, ← add_div, two_mul]
  have := abs_norm_sub_norm_le V U
  rw [norm_sub_rev] at this
  rw [Real.norm_eq_abs]
  gcongr

variable {k : K3} {b : ℝ}

/-- The angle of the arctangent term is small when the shear is. -/
theorem atR_le (h : k.k1 ≠ 0) : |atR k b| ≤ Real.pi * |b * k.k1| / Real.sqrt (kk0R k b) := by
  have hs := sR_pos h
  have h0 := kk0R_pos (b := b) h
  have hss : Real.sqrt (sR k) * Real.sqrt (sR k) = sR k := Real.mul_self_sqrt hs.le
  obtain ⟨U, hU⟩ : ∃ U : ℂ, U = ⟨Real.sqrt (sR k), k30R k b⟩ := ⟨_, rfl⟩
  obtain ⟨V, hV⟩ : ∃ V : ℂ, V = ⟨Real.sqrt (sR k), k.k3⟩ := ⟨_, rfl⟩
  have sp := Real.sqrt_pos.2 hs
  have U0 : U ≠ 0 := fun h => sp.ne' (by simpa [hU] using congrArg Complex.re h)
  have V0 : V ≠ 0 := fun h => sp.ne' (by simpa [hV] using congrArg Complex.re h)
  have nU : ‖U‖ = Real.sqrt (kk0R k b) := by
    rw [Complex.norm_def, Complex.normSq_apply, hU]
    congr 1
    simp only [hss]
    unfold kk0R sR
    ring
  have hsub : ‖U - V‖ = |b * k.k1| := by
    have : U - V = ((b * k.k1 : ℝ) : ℂ) * Complex.I := by
      apply Complex.ext <;> simp [hU, hV, k30R]
    rw [this, norm_mul, Complex.norm_I, mul_one, Complex.norm_real, Real.norm_eq_abs]
  have hw : (⟨kk0R k b - k30R k b * k.k1 * b, b * k.k1 * Real.sqrt (sR k)⟩ : ℂ) =
      ((‖V‖ ^ 2 : ℝ) : ℂ) * (U / V) := by
    have hc : ((‖V‖ ^ 2 : ℝ) : ℂ) * (U / V) = U * (starRingEnd ℂ) V := by
      have : ((‖V‖ ^ 2 : ℝ) : ℂ) = V * (starRingEnd ℂ) V := by
        rw [Complex.mul_conj, Complex.normSq_eq_norm_sq]
      rw [this]
      field_simp
    rw [hc]
    apply Complex.ext
    · simp only [hU, hV, Complex.mul_re, Complex.conj_re, Complex.conj_im, hss]
      unfold kk0R k30R sR
      ring
    · simp only [hU, hV, Complex.mul_im, Complex.conj_re, Complex.conj_im]
      unfold k30R
      ring
  have v0 : 0 < ‖V‖ := norm_pos_iff.2 V0
  have u0 : 0 < ‖U‖ := norm_pos_iff.2 U0
  unfold atR
  rw [hw, Complex.arg_real_mul _ (by positivity), ← Complex.angle_eq_abs_arg U0 V0]
  have h1 : InnerProductGeometry.angle U V = InnerProductGeometry.angle (U / ‖U‖) (V / ‖V‖) := by
    have e1 : U / ‖U‖ = (‖U‖⁻¹ : ℝ) • U := by rw [Complex.real_smul]; push_cast; rw [div_eq_inv_mul]
    have e2 : V / ‖V‖ = (‖V‖⁻¹ : ℝ) • V := by rw [Complex.real_smul]; push_cast; rw [div_eq_inv_mul]
    rw [e1, e2, InnerProductGeometry.angle_smul_left_of_pos _ _ (inv_pos.2 u0),
      InnerProductGeometry.angle_smul_right_of_pos _ _ (inv_pos.2 v0)]
  rw [h1]
  have n1 : ‖U / (‖U‖ : ℂ)‖ = 1 := by rw [norm_div, Complex.norm_real, norm_norm, div_self u0.ne']
  have n2 : ‖V / (‖V‖ : ℂ)‖ = 1 := by rw [norm_div, Complex.norm_real, norm_norm, div_self v0.ne']
  refine (Complex.angle_le_mul_norm_sub n1 n2).trans ?_
  have h2 := unit_dist U0 V0
  rw [hsub, nU] at h2
  have hpi := Real.pi_pos
  rw [nU] at *
  calc Real.pi / 2 * ‖U / (Real.sqrt (kk0R k b) : ℂ) - V / ‖V‖‖ ≤ Real.pi / 2 * (2 * |b * k.k1| / Real.sqrt (kk0R k b)) := by gcongr
    _ = _ := by ring

/-- Size of the first coefficient of the distortion. -/
theorem c1_le (h : k.k1 ≠ 0) (t : ℝ) (ht : |t * k.k1| ≤ sR k) :
    |t / k.k1 * c1R k b| * Real.sqrt (sR k) ≤ |b| * Real.sqrt (kk0R k b) := by
  have hs := sR_pos h
  have h0 := kk0R_pos (b := b) h
  have hk := kkR_pos h
  have e : t / k.k1 * c1R k b = b * (t * k.k1) / sR k * ((sR k - k.k3 * k30R k b) / kkR k) := by
    unfold c1R
    have : kk0R k b - 2 * (k30R k b * k30R k b) + b * k.k1 * k30R k b = sR k - k.k3 * k30R k b := by
      unfold kk0R sR k30R; ring
    rw [this]
    field_simp
  have hcs : |sR k - k.k3 * k30R k b| ≤ Real.sqrt (kkR k) * Real.sqrt (kk0R k b) := by
    rw [← Real.sqrt_mul hk.le, ← Real.sqrt_sq_eq_abs]
    refine Real.sqrt_le_sqrt ?_
    have e1 : kkR k = sR k + k.k3 ^ 2 := by unfold kkR sR; ring
    have e2 : kk0R k b = sR k + k30R k b ^ 2 := by unfold kk0R sR; ring
    rw [e1, e2]
    nlinarith [mul_nonneg hs.le (sq_nonneg (k.k3 + k30R k b))]
  have hle : Real.sqrt (sR k) ≤ Real.sqrt (kkR k) := Real.sqrt_le_sqrt (by unfold sR kkR; nlinarith [mul_self_nonneg k.k3])
  have hq : |t * k.k1| / sR k ≤ 1 := by rw [div_le_one hs]; exact ht
  have kq : Real.sqrt (kkR k) * Real.sqrt (kkR k) = kkR k := Real.mul_self_sqrt hk.le
  rw [e, abs_mul, abs_div, abs_div, abs_of_pos hs, abs_of_pos hk, abs_mul b]
  have g1 : |sR k - k.k3 * k30R k b| / kkR k * Real.sqrt (sR k) ≤ Real.sqrt (kk0R k b) := by
    rw [div_mul_eq_mul_div, div_le_iff₀ hk]
    calc |sR k - k.k3 * k30R k b| * Real.sqrt (sR k) ≤ (Real.sqrt (kkR k) * Real.sqrt (kk0R k b)) * Real.sqrt (kkR k) := by gcongr
      _ = Real.sqrt (kk0R k b) * (Real.sqrt (kkR k) * Real.sqrt (kkR k)) := by ring
      _ = _ := by rw [kq]
  calc |b| * |t * k.k1| / sR k * (|sR k - k.k3 * k30R k b| / kkR k) * Real.sqrt (sR k)
      = |b| * (|t * k.k1| / sR k) * (|sR k - k.k3 * k30R k b| / kkR k * Real.sqrt (sR k)) := by ring
    _ ≤ |b| * 1 * Real.sqrt (kk0R k b) := by gcongr
    _ = _ := by ring

/-- Size of the second coefficient of the distortion. -/
theorem c2_le (h : k.k1 ≠ 0) (t : ℝ) (ht : |t * k.k2| ≤ sR k) :
    |t / k.k1 * c2R k b| * Real.sqrt (sR k) ≤ Real.pi * |b| * Real.sqrt (kk0R k b) := by
  have hs := sR_pos h
  have h0 := kk0R_pos (b := b) h
  have sp := Real.sqrt_pos.2 hs
  have s0 := Real.sqrt_pos.2 h0
  have hat := atR_le (b := b) h
  have hpi := Real.pi_pos
  have e3 : (sR k) ^ (3 / 2 : ℝ) = sR k * Real.sqrt (sR k) := by
    rw [show (3 / 2 : ℝ) = 1 + 1 / 2 by norm_num, Real.rpow_add hs, Real.rpow_one, ← Real.sqrt_eq_rpow]
  have kq : Real.sqrt (kk0R k b) * Real.sqrt (kk0R k b) = kk0R k b := Real.mul_self_sqrt h0.le
  have e : |t / k.k1 * c2R k b| * Real.sqrt (sR k) = |t * k.k2| / sR k * (kk0R k b * |atR k b| / |k.k1|) := by
    unfold c2R
    rw [e3, abs_mul, abs_mul, abs_div, abs_div, abs_mul k.k2, abs_mul (sR k), abs_of_pos hs, abs_of_pos sp, abs_of_pos h0,
      abs_mul t]
    field_simp
  rw [e]
  have hq : |t * k.k2| / sR k ≤ 1 := by rw [div_le_one hs]; exact ht
  have k1p : 0 < |k.k1| := abs_pos.2 h
  have g : kk0R k b * |atR k b| / |k.k1| ≤ Real.pi * |b| * Real.sqrt (kk0R k b) := by
    rw [div_le_iff₀ k1p]
    calc kk0R k b * |atR k b| ≤ kk0R k b * (Real.pi * |b * k.k1| / Real.sqrt (kk0R k b)) := by gcongr
      _ = Real.pi * |b * k.k1| * (Real.sqrt (kk0R k b) * Real.sqrt (kk0R k b)) / Real.sqrt (kk0R k b) := by rw [kq]; ring
      _ = Real.pi * |b| * Real.sqrt (kk0R k b) * |k.k1| := by rw [abs_mul]; field_simp
  calc |t * k.k2| / sR k * (kk0R k b * |atR k b| / |k.k1|) ≤ 1 * (Real.pi * |b| * Real.sqrt (kk0R k b)) := by
        gcongr
    _ = _ := one_mul _

theorem abs_le_sqrt_kk0 (k : K3) (b : ℝ) : |k.k1| ≤ Real.sqrt (kk0R k b) ∧ |k.k2| ≤ Real.sqrt (kk0R k b) ∧
    |k30R k b| ≤ Real.sqrt (kk0R k b) := by
  refine ⟨?_, ?_, ?_⟩ <;> refine Real.abs_le_sqrt ?_ <;> unfold kk0R <;>
    nlinarith [mul_self_nonneg k.k1, mul_self_nonneg k.k2, mul_self_nonneg (k30R k b)]

theorem abs_le_sqrt_s (k : K3) : |k.k1| ≤ Real.sqrt (sR k) ∧ |k.k2| ≤ Real.sqrt (sR k) := by
  refine ⟨?_, ?_⟩ <;> refine Real.abs_le_sqrt ?_ <;> unfold sR <;>
    nlinarith [mul_self_nonneg k.k1, mul_self_nonneg k.k2]

/-- Entries of the sheared kernel, without the energy factor. -/
theorem kerR_le (h : k.k1 ≠ 0) (i j : Fin 3) :
    |kerR k b i j| ≤ Real.sqrt (kk0R k b) * (1 + (1 + Real.pi) * |b|) + kk0R k b / Real.sqrt (kkR k) := by
  have hs := sR_pos h
  have h0 := kk0R_pos (b := b) h
  have hk := kkR_pos h
  have hpi := Real.pi_pos
  obtain ⟨q1, q2, q3⟩ := abs_le_sqrt_kk0 k b
  obtain ⟨w1, w2⟩ := abs_le_sqrt_s k
  have s0 := Real.sqrt_nonneg (kk0R k b)
  have kp := Real.sqrt_pos.2 hk
  have l0 : 0 ≤ kk0R k b / Real.sqrt (kkR k) := by positivity
  have hz := zc_generic (b := b) h
  have m11 : |k.k1 * k.k1| ≤ sR k := by rw [abs_of_nonneg (mul_self_nonneg _)]; unfold sR; nlinarith [mul_self_nonneg k.k2]
  have m22 : |k.k2 * k.k2| ≤ sR k := by rw [abs_of_nonneg (mul_self_nonneg _)]; unfold sR; nlinarith [mul_self_nonneg k.k1]
  have m12 : |k.k1 * k.k2| ≤ sR k := by
    rw [abs_le]; unfold sR
    constructor <;> nlinarith [sq_nonneg (k.k1 + k.k2), sq_nonneg (k.k1 - k.k2)]
  have m21 : |k.k2 * k.k1| ≤ sR k := by rw [mul_comm]; exact m12
  have hz1 : |z1R k b| * Real.sqrt (sR k) ≤ (1 + Real.pi) * |b| * Real.sqrt (kk0R k b) := by
    have a1 := c1_le (b := b) h k.k1 m11
    have a2 := c2_le (b := b) h k.k2 m22
    rw [div_self h, one_mul] at a1
    unfold z1R
    have := abs_sub (c1R k b) (k.k2 / k.k1 * c2R k b)
    have sp := Real.sqrt_nonneg (sR k)
    nlinarith
  have hz2 : |z2R k b| * Real.sqrt (sR k) ≤ (1 + Real.pi) * |b| * Real.sqrt (kk0R k b) := by
    have a1 := c1_le (b := b) h k.k2 m21
    have a2 := c2_le (b := b) h k.k1 m12
    rw [div_self h, one_mul] at a2
    unfold z2R
    have := abs_add_le (k.k2 / k.k1 * c1R k b) (c2R k b)
    have sp := Real.sqrt_nonneg (sR k)
    nlinarith
  have hz3 : |z3R k b| * Real.sqrt (sR k) ≤ kk0R k b / Real.sqrt (kkR k) := by
    unfold z3R
    rw [abs_of_pos (by positivity)]
    have hle : Real.sqrt (sR k) ≤ Real.sqrt (kkR k) := Real.sqrt_le_sqrt (by unfold sR kkR; nlinarith [mul_self_nonneg k.k3])
    calc kk0R k b / kkR k * Real.sqrt (sR k) ≤ kk0R k b / kkR k * Real.sqrt (kkR k) := by gcongr
      _ = kk0R k b / (Real.sqrt (kkR k) * Real.sqrt (kkR k)) * Real.sqrt (kkR k) := by rw [Real.mul_self_sqrt hk.le]
      _ = _ := by field_simp
  have p : ∀ z x B : ℝ, |z| * Real.sqrt (sR k) ≤ B → |x| ≤ Real.sqrt (sR k) → |z * x| ≤ B := by
    intro z x B h1 h2
    rw [abs_mul]
    exact (mul_le_mul_of_nonneg_left h2 (abs_nonneg z)).trans h1
  have hb0 : 0 ≤ (1 + Real.pi) * |b| * Real.sqrt (kk0R k b) := by positivity
  have e0 : Real.sqrt (kk0R k b) * (1 + (1 + Real.pi) * |b|) = Real.sqrt (kk0R k b) + (1 + Real.pi) * |b| * Real.sqrt (kk0R k b) := by ring
  rw [e0]
  have t : ∀ a b : ℝ, |a + b| ≤ |a| + |b| := abs_add_le
  have t' : ∀ a b : ℝ, |a - b| ≤ |a| + |b| := abs_sub
  fin_cases i <;> fin_cases j <;> simp only [kerR, hz] <;> simp
  · linarith [p _ _ _ hz1 w2, abs_mul (z1R k b) k.k2]
  · have := t (-k30R k b) (z1R k b * k.k1)
    rw [abs_neg] at this
    linarith [p _ _ _ hz1 w1]
  · linarith
  · have := t' (k30R k b) (z2R k b * k.k2)
    linarith [p _ _ _ hz2 w2]
  · linarith [p _ _ _ hz2 w1, abs_mul (z2R k b) k.k1]
  · linarith
  · linarith [p _ _ _ hz3 w2, abs_mul (z3R k b) k.k2]
  · linarith [p _ _ _ hz3 w1, abs_mul (z3R k b) k.k1]
  · positivity

/-- The energy factor decays at least like the inverse square. -/
theorem constR_le {L E0 : ℝ} (hL : 0 < L) (hE : 0 ≤ E0) {x : ℝ} (hx : 0 ≤ x) :
    constR L E0 x ≤ Real.sqrt (E0 * L ^ (17 / 3 : ℝ) / (4 * Real.pi)) / (1 + L ^ 2 * x) := by
  have hy : 1 ≤ 1 + L ^ 2 * x := by have : 0 ≤ L ^ 2 * x := by positivity
                                    linarith
  have hpi := Real.pi_pos
  unfold constR
  rw [Real.sqrt_div (by positivity)]
  gcongr
  refine Real.le_sqrt_of_sq_le ?_
  rw [← Real.rpow_two]
  exact Real.rpow_le_rpow_of_exponent_le hy (by norm_num)

theorem constR_nonneg (L E0 x : ℝ) : 0 ≤ constR L E0 x := Real.sqrt_nonneg _

/-- Bounds of the energy factor times the wavenumber and its square. -/
theorem constR_mul_le {L E0 : ℝ} (hL : 0 < L) (hE : 0 ≤ E0) {x : ℝ} (hx : 0 ≤ x) :
    constR L E0 x * Real.sqrt x ≤ Real.sqrt (E0 * L ^ (17 / 3 : ℝ) / (4 * Real.pi)) / L ∧
    constR L E0 x * x ≤ Real.sqrt (E0 * L ^ (17 / 3 : ℝ) / (4 * Real.pi)) / L ^ 2 := by
  have h1 := constR_le hL hE hx
  obtain ⟨c, hc⟩ : ∃ c, c = Real.sqrt (E0 * L ^ (17 / 3 : ℝ) / (4 * Real.pi)) := ⟨_, rfl⟩
  rw [← hc] at h1 ⊢
  have c0 : 0 ≤ c := by rw [hc]; exact Real.sqrt_nonneg _
  have hp : 0 < 1 + L ^ 2 * x := by positivity
  have sx := Real.sqrt_nonneg x
  have sq : Real.sqrt x * Real.sqrt x = x := Real.mul_self_sqrt hx
  constructor
  · refine (mul_le_mul_of_nonneg_right h1 sx).trans ?_
    rw [div_mul_eq_mul_div, div_le_div_iff₀ hp hL]
    have : Real.sqrt x * L ≤ 1 + L ^ 2 * x := by nlinarith [sq_nonneg (L * Real.sqrt x - 1)]
    calc c * Real.sqrt x * L = c * (Real.sqrt x * L) := by ring
      _ ≤ _ := by gcongr
  · refine (mul_le_mul_of_nonneg_right h1 hx).trans ?_
    rw [div_mul_eq_mul_div, div_le_div_iff₀ hp (by positivity)]
    have : x * L ^ 2 ≤ 1 + L ^ 2 * x := by nlinarith
    calc c * x * L ^ 2 = c * (x * L ^ 2) := by ring
      _ ≤ _ := by gcongr

/-- Entries of the sheared kernel: bounded apart from a first-order pole at the origin, for a lifetime that grows at most like
the inverse wavenumber. -/
theorem shear_entry_le {L E0 B : ℝ} (hL : 0 < L) (hE : 0 ≤ E0) (h : k.k1 ≠ 0) (hB : |b| * Real.sqrt (kkR k) ≤ B) (i j : Fin 3) :
    |constR L E0 (kk0R k b) * kerR k b i j| ≤ Real.sqrt (E0 * L ^ (17 / 3 : ℝ) / (4 * Real.pi)) / L +
      (Real.sqrt (E0 * L ^ (17 / 3 : ℝ) / (4 * Real.pi)) / L * (1 + Real.pi) * B +
        Real.sqrt (E0 * L ^ (17 / 3 : ℝ) / (4 * Real.pi)) / L ^ 2) / Real.sqrt (kkR k) := by
  have h0 := kk0R_pos (b := b) h
  obtain ⟨g1, g2⟩ := constR_mul_le hL hE h0.le
  obtain ⟨Q, hQ⟩ : ∃ Q, Q = Real.sqrt (E0 * L ^ (17 / 3 : ℝ) / (4 * Real.pi)) / L := ⟨_, rfl⟩
  obtain ⟨P, hP⟩ : ∃ P, P = Real.sqrt (E0 * L ^ (17 / 3 : ℝ) / (4 * Real.pi)) / L ^ 2 := ⟨_, rfl⟩
  rw [← hQ, ← hP]
  rw [← hQ] at g1
  rw [← hP] at g2
  have hc := constR_nonneg L E0 (kk0R k b)
  have kp := Real.sqrt_pos.2 (kkR_pos h)
  have hpi := Real.pi_pos
  have Q0 : 0 ≤ Q := by rw [hQ]; positivity
  rw [abs_mul, abs_of_nonneg hc]
  refine (mul_le_mul_of_nonneg_left (kerR_le h i j) hc).trans ?_
  have hb : |b| ≤ B / Real.sqrt (kkR k) := by rwa [le_div_iff₀ kp]
  calc constR L E0 (kk0R k b) * (Real.sqrt (kk0R k b) * (1 + (1 + Real.pi) * |b|) + kk0R k b / Real.sqrt (kkR k))
      = constR L E0 (kk0R k b) * Real.sqrt (kk0R k b) * (1 + (1 + Real.pi) * |b|) +
        constR L E0 (kk0R k b) * kk0R k b / Real.sqrt (kkR k) := by ring
    _ ≤ Q * (1 + (1 + Real.pi) * (B / Real.sqrt (kkR k))) + P / Real.sqrt (kkR k) := by gcongr
    _ = _ := by ring

/-- On the plane `k1 = 0` the entries are bounded. -/
theorem shear_entry_plane {L E0 : ℝ} (hL : 0 < L) (hE : 0 ≤ E0) (h : k.k1 = 0) (i j : Fin 3) :
    |constR L E0 (kk0R k b) * kerR k b i j| ≤ Real.sqrt (E0 * L ^ (17 / 3 : ℝ) / (4 * Real.pi)) / L := by
  obtain ⟨g1, -⟩ := constR_mul_le hL hE (kk0R_nonneg k b)
  refine le_trans ?_ g1
  have hc := constR_nonneg L E0 (kk0R k b)
  rw [abs_mul, abs_of_nonneg hc]
  refine mul_le_mul_of_nonneg_left ?_ hc
  obtain ⟨q1, q2, q3⟩ := abs_le_sqrt_kk0 k b
  have s0 := Real.sqrt_nonneg (kk0R k b)
  by_cases hk : kkR k = 0
  · have hz := zc_zero (b := b) hk
    fin_cases i <;> fin_cases j <;> simp only [kerR, hz] <;> simp [h] <;> assumption
  · have hz := zc_k1_zero (b := b) h hk
    fin_cases i <;> fin_cases j <;> simp only [kerR, hz] <;> simp [h] <;> assumption

end
end Verif
