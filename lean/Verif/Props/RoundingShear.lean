import Verif.Model.RoundedShear
import Verif.Props.RoundingField
import Verif.Props.ParamContinuity
import Verif.Props.MannLifetime

/-!
# C143: rounding errors of the sheared kernels

`C1 - k2/k1 * C2` and `kk0 - k30 * k1 * beta` subtract numbers of similar size, so single entries have no small relative error.
The error of the whole matrix is small compared with the matrix, at every wavevector, with a constant that depends on the lifetime
only.
-/

namespace Verif
open Fl Fmt Spec

noncomputable section

/-! ### Lengths of the two wavevectors -/

section lengths
variable (k : K3) (b : ℝ)

/-- Length of the wavevector before the distortion. -/
def kapN : ℝ := Real.sqrt (kk0R k b)
/-- Length of the wavevector. -/
def kN : ℝ := Real.sqrt (kkR k)
/-- Length of its horizontal part. -/
def sN : ℝ := Real.sqrt (sR k)

theorem kapN_nonneg : 0 ≤ kapN k b := Real.sqrt_nonneg _
theorem kN_nonneg : 0 ≤ kN k := Real.sqrt_nonneg _
theorem sN_nonneg : 0 ≤ sN k := Real.sqrt_nonneg _
theorem kapN_sq : kapN k b * kapN k b = kk0R k b := Real.mul_self_sqrt (kk0R_nonneg k b)
theorem kN_sq : kN k * kN k = kkR k := Real.mul_self_sqrt (kkR_nonneg k)
theorem sN_sq : sN k * sN k = sR k := Real.mul_self_sqrt (sR_nonneg k)

theorem k1_le_sN : |k.k1| ≤ sN k := Real.abs_le_sqrt (by unfold sR; nlinarith [mul_self_nonneg k.k2])
theorem k2_le_sN : |k.k2| ≤ sN k := Real.abs_le_sqrt (by unfold sR; nlinarith [mul_self_nonneg k.k1])
theorem k3_le_kN : |k.k3| ≤ kN k := Real.abs_le_sqrt (by unfold kkR; nlinarith [mul_self_nonneg k.k1, mul_self_nonneg k.k2])
theorem t_le_kapN : |k30R k b| ≤ kapN k b :=
  Real.abs_le_sqrt (by unfold kk0R; nlinarith [mul_self_nonneg k.k1, mul_self_nonneg k.k2])
theorem sN_le_kN : sN k ≤ kN k := Real.sqrt_le_sqrt (by unfold sR kkR; nlinarith [mul_self_nonneg k.k3])
theorem sN_le_kapN : sN k ≤ kapN k b := Real.sqrt_le_sqrt (by unfold sR kk0R; nlinarith [mul_self_nonneg (k30R k b)])
theorem kapN_le_sum : kapN k b ≤ |k30R k b| + sN k := by
  refine Real.sqrt_le_iff.2 ⟨by have := sN_nonneg k; positivity, ?_⟩
  have h := sN_sq k
  have e : kk0R k b = sR k + k30R k b * k30R k b := by unfold kk0R sR; ring
  nlinarith [mul_nonneg (abs_nonneg (k30R k b)) (sN_nonneg k), abs_mul_abs_self (k30R k b)]

theorem len_aux {s x y d c : ℝ} (hs : 0 ≤ s) (hd : d * d ≤ s) (hx : |x| ≤ |y| + c * |d|) (hc : 0 ≤ c) :
    Real.sqrt (s + x * x) ≤ (1 + c) * Real.sqrt (s + y * y) := by
  have h0 : 0 ≤ s + y * y := by nlinarith [mul_self_nonneg y]
  rw [← Real.sqrt_sq (by linarith : 0 ≤ 1 + c), ← Real.sqrt_mul (sq_nonneg _)]
  refine Real.sqrt_le_sqrt ?_
  have x1 : x * x ≤ (|y| + c * |d|) * (|y| + c * |d|) := by
    rw [← abs_mul_abs_self x]
    exact mul_self_le_mul_self (abs_nonneg _) hx
  have y1 := abs_mul_abs_self y
  have d1 := abs_mul_abs_self d
  have m1 : 2 * (|y| * |d|) ≤ |y| * |y| + |d| * |d| := by nlinarith [sq_nonneg (|y| - |d|)]
  have m2 : c * (2 * (|y| * |d|)) ≤ c * (y * y + s) := mul_le_mul_of_nonneg_left (by linarith) hc
  have m3 : c * c * (|d| * |d|) ≤ c * c * s := mul_le_mul_of_nonneg_left (by linarith) (mul_self_nonneg c)
  have m4 : 0 ≤ c * (y * y) := mul_nonneg hc (mul_self_nonneg y)
  have m5 : 0 ≤ c * s := mul_nonneg hc hs
  have m6 : 0 ≤ c * c * (y * y) := mul_nonneg (mul_self_nonneg c) (mul_self_nonneg y)
  nlinarith

theorem kN_le : kN k ≤ (1 + |b|) * kapN k b := by
  have e1 : kkR k = sR k + k.k3 * k.k3 := by unfold kkR sR; ring
  have e2 : kk0R k b = sR k + k30R k b * k30R k b := by unfold kk0R sR; ring
  unfold kN kapN
  rw [e1, e2]
  refine len_aux (d := k.k1) (sR_nonneg k) (by unfold sR; nlinarith [mul_self_nonneg k.k2]) ?_ (abs_nonneg b)
  have : k.k3 = k30R k b - b * k.k1 := by unfold k30R; ring
  rw [← abs_mul]
  nth_rw 1 [this]
  exact abs_sub _ _

theorem kapN_le : kapN k b ≤ (1 + |b|) * kN k := by
  have e1 : kkR k = sR k + k.k3 * k.k3 := by unfold kkR sR; ring
  have e2 : kk0R k b = sR k + k30R k b * k30R k b := by unfold kk0R sR; ring
  unfold kN kapN
  rw [e1, e2]
  refine len_aux (d := k.k1) (sR_nonneg k) (by unfold sR; nlinarith [mul_self_nonneg k.k2]) ?_ (abs_nonneg b)
  rw [← abs_mul]
  exact abs_add_le _ _

/-- Denominator of the arctangent term: inner product of the two wavevectors. -/
def denR : ℝ := kk0R k b - k30R k b * k.k1 * b
/-- Numerator: length of their vector product. -/
def numR : ℝ := b * k.k1 * Real.sqrt (sR k)

theorem num_den_sq : denR k b ^ 2 + numR k b ^ 2 = (kapN k b * kN k) ^ 2 := by
  have h1 := kapN_sq k b
  have h2 := kN_sq k
  have h3 : Real.sqrt (sR k) * Real.sqrt (sR k) = sR k := sN_sq k
  have e : (kapN k b * kN k) ^ 2 = kk0R k b * kkR k := by rw [← h1, ← h2]; ring
  have e2 : numR k b ^ 2 = (b * k.k1) ^ 2 * sR k := by rw [← h3]; unfold numR; ring
  rw [e, e2]
  unfold denR kk0R kkR k30R sR
  ring

theorem den_le : |denR k b| ≤ kapN k b * kN k := by
  refine abs_le_of_sq_le_sq ?_ (mul_nonneg (kapN_nonneg k b) (kN_nonneg k))
  have := num_den_sq k b
  nlinarith [sq_nonneg (numR k b)]

theorem norm_den_num : ‖(⟨denR k b, numR k b⟩ : ℂ)‖ = kapN k b * kN k := by
  rw [Complex.norm_def, Complex.normSq_apply]
  have := num_den_sq k b
  rw [show denR k b * denR k b + numR k b * numR k b = (kapN k b * kN k) ^ 2 by rw [← this]; ring]
  exact Real.sqrt_sq (mul_nonneg (kapN_nonneg k b) (kN_nonneg k))

/-- The angle between the two wavevectors, compared with their lengths. -/
theorem angle_ratio (h : k.k1 ≠ 0) : kkR k * |atR k b| ≤ Real.pi * ((1 + |b|) ^ 2 * (|k.k1| * sN k)) := by
  have hq : 0 < kN k := Real.sqrt_pos.2 (kkR_pos h)
  have hκ : 0 < kapN k b := Real.sqrt_pos.2 (kk0R_pos h)
  have hs : 0 < sN k := Real.sqrt_pos.2 (sR_pos h)
  have hk1 := abs_pos.2 h
  have b0 := abs_nonneg b
  have pp := Real.pi_pos
  have hz : atR k b = Complex.arg ⟨denR k b, numR k b⟩ := rfl
  rcases le_or_gt 0 (denR k b) with hd | hd
  · have h1 : |atR k b| ≤ Real.pi / 2 := by rw [hz]; exact Complex.abs_arg_le_pi_div_two_iff.2 hd
    have h2 : |Real.sin (atR k b)| = |numR k b| / (kapN k b * kN k) := by
      rw [hz, Complex.sin_arg, norm_den_num, abs_div, abs_of_nonneg (mul_nonneg hκ.le hq.le)]
    have h3 : 2 / Real.pi * |atR k b| ≤ Real.sin |atR k b| := Real.mul_le_sin (abs_nonneg _) h1
    have h4 : Real.sin |atR k b| ≤ |Real.sin (atR k b)| := by
      rcases abs_choice (atR k b) with e | e <;> rw [e]
      · exact le_abs_self _
      · rw [Real.sin_neg]; exact neg_le_abs _
    have h5 : |numR k b| = |b| * (|k.k1| * sN k) := by
      unfold numR sN; rw [abs_mul, abs_mul, abs_of_nonneg (Real.sqrt_nonneg _)]; ring
    have h6 : 2 / Real.pi * |atR k b| ≤ |b| * (|k.k1| * sN k) / (kapN k b * kN k) := by
      rw [← h5, ← h2]; exact h3.trans h4
    rw [le_div_iff₀ (mul_pos hκ hq)] at h6
    have h7 : kkR k * |atR k b| * (2 * kapN k b) ≤ Real.pi * (|b| * (|k.k1| * sN k)) * kN k := by
      rw [← kN_sq k]
      have := mul_le_mul_of_nonneg_left h6 (mul_nonneg pp.le hq.le)
      refine le_trans (le_of_eq ?_) (this.trans (le_of_eq (by ring)))
      field_simp
    have h8 : Real.pi * (|b| * (|k.k1| * sN k)) * kN k ≤ Real.pi * (|b| * (|k.k1| * sN k)) * ((1 + |b|) * kapN k b) :=
      mul_le_mul_of_nonneg_left (kN_le k b) (by positivity)
    have h9 : kkR k * |atR k b| * 2 ≤ Real.pi * (|b| * (|k.k1| * sN k)) * (1 + |b|) := by
      refine le_of_mul_le_mul_right ?_ hκ
      linarith
    have h10 : 0 ≤ Real.pi * (|k.k1| * sN k) := by positivity
    have h11 : 0 ≤ kkR k * |atR k b| := mul_nonneg (kkR_nonneg k) (abs_nonneg _)
    nlinarith [mul_nonneg h10 b0, mul_nonneg (mul_nonneg h10 b0) b0]
  · have h1 : |atR k b| ≤ Real.pi := by rw [hz]; exact Complex.abs_arg_le_pi _
    have e : denR k b = kkR k + k.k3 * (b * k.k1) := by unfold denR kk0R kkR k30R; ring
    have h2 : kN k * kN k < kN k * |b * k.k1| := by
      have h3 : -(k.k3 * (b * k.k1)) ≤ |k.k3| * |b * k.k1| := by rw [← abs_mul]; exact neg_le_abs _
      have h4 := mul_le_mul_of_nonneg_right (k3_le_kN k) (abs_nonneg (b * k.k1))
      rw [kN_sq]
      linarith
    have h3 : kN k < |b * k.k1| := lt_of_mul_lt_mul_left h2 hq.le
    have h4 : kkR k ≤ |b| * |k.k1| * (|b| * |k.k1|) := by
      rw [← kN_sq, ← abs_mul]
      exact mul_self_le_mul_self hq.le h3.le
    have h5 : |k.k1| * |k.k1| ≤ |k.k1| * sN k := mul_le_mul_of_nonneg_left (k1_le_sN k) hk1.le
    have h6 : kkR k * |atR k b| ≤ (|b| * |k.k1| * (|b| * |k.k1|)) * Real.pi :=
      mul_le_mul h4 h1 (abs_nonneg _) (by positivity)
    have h7 : |b| * |b| * (|k.k1| * |k.k1|) ≤ (1 + |b|) ^ 2 * (|k.k1| * sN k) := by
      refine mul_le_mul ?_ h5 (by positivity) (by positivity)
      nlinarith
    calc kkR k * |atR k b| ≤ Real.pi * (|b| * |b| * (|k.k1| * |k.k1|)) := by linarith
      _ ≤ _ := mul_le_mul_of_nonneg_left h7 pp.le

end lengths

/-! ### The angle -/

/-- The polar angle depends on the point with a relative error bounded by that of the point. -/
theorem arctan_stable {c c' η : ℝ} (hη : η ≤ 1 / 2) (h : |c' - c| ≤ η * Real.sqrt (1 + c ^ 2)) :
    |(Real.pi / 2 - Real.arctan c') - (Real.pi / 2 - Real.arctan c)| ≤ 4 * η * (Real.pi / 2 - Real.arctan c) := by
  obtain ⟨r, hr⟩ : ∃ r, r = Real.sqrt (1 + c ^ 2) := ⟨_, rfl⟩
  have r0 : 0 < r := by rw [hr]; positivity
  have rr : r * r = 1 + c ^ 2 := by rw [hr]; exact Real.mul_self_sqrt (by positivity)
  rw [← hr] at h
  have η0 : 0 ≤ η := by
    by_contra hn
    push Not at hn
    have := (abs_nonneg _).trans h
    nlinarith
  -- the derivative between the two points
  have hder : ∀ t, |t - c| ≤ η * r → 1 / (1 + t ^ 2) ≤ 4 / (r * r) := by
    intro t ht
    have h1 : |c| ≤ |t| + |t - c| := by
      have := abs_sub t (t - c)
      rwa [sub_sub_cancel] at this
    have h2 : r ≤ Real.sqrt (1 + t ^ 2) + |t - c| := by
      rw [hr]
      refine Real.sqrt_le_iff.2 ⟨by positivity, ?_⟩
      have q := Real.sq_sqrt (show 0 ≤ 1 + t ^ 2 by positivity)
      have q1 : |t| ≤ Real.sqrt (1 + t ^ 2) := Real.abs_le_sqrt (by linarith)
      have q2 := mul_le_mul_of_nonneg_right q1 (abs_nonneg (t - c))
      have q3 : c ^ 2 ≤ (|t| + |t - c|) ^ 2 := by
        rw [← sq_abs c]
        exact pow_le_pow_left₀ (abs_nonneg _) h1 2
      have q4 := sq_abs t
      nlinarith
    have h3 : r / 2 ≤ Real.sqrt (1 + t ^ 2) := by nlinarith
    have h4 : r / 2 * (r / 2) ≤ 1 + t ^ 2 := by
      have q := Real.mul_self_sqrt (show 0 ≤ 1 + t ^ 2 by positivity)
      rw [← q]
      exact mul_self_le_mul_self (by positivity) h3
    rw [div_le_div_iff₀ (by positivity) (by positivity)]
    linarith
  have hconv : Convex ℝ (Set.Icc (c - η * r) (c + η * r)) := convex_Icc _ _
  have mem : ∀ t, t ∈ Set.Icc (c - η * r) (c + η * r) ↔ |t - c| ≤ η * r := by
    intro t
    rw [abs_le, Set.mem_Icc]
    constructor <;> rintro ⟨p, q⟩ <;> constructor <;> linarith
  have hmv := hconv.norm_image_sub_le_of_norm_hasDerivWithin_le (f := Real.arctan) (f' := fun t => 1 / (1 + t ^ 2))
    (C := 4 / (r * r)) (fun t _ => (Real.hasDerivAt_arctan t).hasDerivWithinAt)
    (fun t ht => by
      rw [Real.norm_eq_abs, abs_of_nonneg (by positivity)]
      exact hder t ((mem t).1 ht))
    ((mem c).2 (by simp; positivity)) ((mem c').2 h)
  rw [Real.norm_eq_abs, Real.norm_eq_abs] at hmv
  have hlow : 1 / r ≤ Real.pi / 2 - Real.arctan c := by
    have h1 := Real.sin_le (show 0 ≤ Real.pi / 2 - Real.arctan c by linarith [Real.arctan_lt_pi_div_two c])
    rwa [Real.sin_pi_div_two_sub, Real.cos_arctan, ← hr] at h1
  rw [show Real.pi / 2 - Real.arctan c' - (Real.pi / 2 - Real.arctan c) = -(Real.arctan c' - Real.arctan c) by ring, abs_neg]
  refine hmv.trans ?_
  calc 4 / (r * r) * |c' - c| ≤ 4 / (r * r) * (η * r) := by gcongr
    _ = 4 * η * (1 / r) := by field_simp
    _ ≤ _ := by gcongr

/-- Polar angle in the upper half plane: numerator with a small relative error, denominator with an error small compared with the
distance from the origin. -/
theorem arg_near_pos {x x' y y' r a b : ℝ} (hy : 0 < y) (hr : x ^ 2 + y ^ 2 = r ^ 2) (r0 : 0 ≤ r) (hx : ScaleNear a r x x')
    (hn : LogNear b y y') (hab : a + b ≤ 1 / 16) :
    LogNear (16 * (a + b)) (Complex.arg ⟨x, y⟩) (Complex.arg ⟨x', y'⟩) := by
  have hy' := hn.pos hy
  have a0 := hx.1
  have b0 := hn.nonneg
  rw [arg_upper _ hy, arg_upper _ hy']
  have h1 : Real.sqrt (1 + (x / y) ^ 2) = r / y := by
    rw [show 1 + (x / y) ^ 2 = (r / y) ^ 2 by rw [div_pow, div_pow, ← hr]; field_simp; ring]
    exact Real.sqrt_sq (by positivity)
  have h2 := hx.mul (ScaleNear.of_log hn.inv)
  rw [abs_of_pos (inv_pos.2 hy), ← div_eq_mul_inv, ← div_eq_mul_inv, ← div_eq_mul_inv] at h2
  have e := ScaleNear.exp_sub_one_le h2.1 (by linarith)
  have h3 : |x' / y' - x / y| ≤ 2 * (a + b) * Real.sqrt (1 + (x / y) ^ 2) := by
    rw [h1]
    exact h2.2.2.trans (mul_le_mul_of_nonneg_right e (by positivity))
  have h4 := arctan_stable (by linarith) h3
  have p0 : 0 < Real.pi / 2 - Real.arctan (x / y) := by linarith [Real.arctan_lt_pi_div_two (x / y)]
  have h5 := LogNear.of_rel (q := 8 * (a + b)) (x := Real.pi / 2 - Real.arctan (x / y)) (y := Real.pi / 2 - Real.arctan (x' / y'))
    (by linarith) (by linarith) (by rw [abs_of_pos p0]; exact h4.trans (le_of_eq (by ring)))
  refine h5.mono ?_
  have hp : 0 < 1 - 8 * (a + b) := by linarith
  have := Real.log_le_sub_one_of_pos (inv_pos.2 hp)
  rw [Real.log_inv] at this
  refine this.trans ?_
  rw [sub_le_iff_le_add, inv_le_iff_one_le_mul₀ hp]
  nlinarith

theorem arg_near {x x' y y' r a b : ℝ} (hy : y ≠ 0) (hr : x ^ 2 + y ^ 2 = r ^ 2) (r0 : 0 ≤ r) (hx : ScaleNear a r x x')
    (hn : LogNear b y y') (hab : a + b ≤ 1 / 16) :
    LogNear (16 * (a + b)) (Complex.arg ⟨x, y⟩) (Complex.arg ⟨x', y'⟩) := by
  rcases lt_or_gt_of_ne hy with h | h
  · have h0 := arg_near_pos (neg_pos.2 h) (by rw [neg_sq]; exact hr) r0 hx hn.neg hab
    have conj : ∀ u v : ℝ, v < 0 → Complex.arg ⟨u, -v⟩ = -Complex.arg ⟨u, v⟩ := by
      intro u v hv
      have e : (⟨u, -v⟩ : ℂ) = (starRingEnd ℂ) ⟨u, v⟩ := by apply Complex.ext <;> simp
      rw [e, Complex.arg_conj, if_neg]
      intro hπ
      have := (Complex.arg_eq_pi_iff.1 hπ).2
      simp only at this
      linarith
    have hy' : y' < 0 := by have := hn.neg.pos (neg_pos.2 h); linarith
    rw [conj _ _ h, conj _ _ hy'] at h0
    simpa using h0.neg
  · exact arg_near_pos h hr r0 hx hn hab

/-! ### The coefficients of the distortion -/

/-- Setting: wavevector `k'` with relative errors `t`, computed lifetime `b'`, an error `ε` that covers one rounding and two errors of
the wavevector, and the unit `h` in which the errors below are measured. -/
structure ShearSetting (A : ShearFmt) (k k' : K3) (b b' a t ε h : ℝ) : Prop where
  near : LogNear a b b'
  n1 : LogNear t k.k1 k'.k1
  n2 : LogNear t k.k2 k'.k2
  n3 : LogNear t k.k3 k'.k3
  cover : A.e + 2 * t ≤ ε
  unit : h = 2 * (1 + |b|) * (a + 2 * ε)
  small : 208 * ((1 + |b|) * h) ≤ 1

namespace ShearSetting
variable {A : ShearFmt} {k k' : K3} {b b' a t ε h : ℝ} (H : ShearSetting A k k' b b' a t ε h)
include H

theorem t_nonneg : 0 ≤ t := H.n1.nonneg

theorem e_le : A.e ≤ ε := by linarith [H.cover, H.t_nonneg]

theorem ε_nonneg : 0 ≤ ε := A.e_nonneg.trans H.e_le

theorem zero_iff : k'.k1 = 0 ↔ k.k1 = 0 := by
  obtain ⟨s, _, hs⟩ := H.n1
  rw [hs, mul_eq_zero, or_iff_left (Real.exp_pos s).ne']

theorem h0 : 0 ≤ h := by
  have := H.near.nonneg
  have := H.ε_nonneg
  have := abs_nonneg b
  rw [H.unit]
  positivity

theorem two : 2 * (a + 2 * ε) ≤ h := by
  have h1 := H.near.nonneg
  have h2 := H.ε_nonneg
  rw [H.unit]
  nlinarith [mul_nonneg (abs_nonneg b) (by linarith : 0 ≤ a + 2 * ε)]

theorem four : 4 * ε ≤ h := by linarith [H.two, H.near.nonneg]

theorem le_B : h ≤ (1 + |b|) * h := by nlinarith [mul_nonneg (abs_nonneg b) H.h0]

theorem h_small : 208 * h ≤ 1 := by linarith [H.le_B, H.small]

theorem k30 : ScaleNear h (kapN k b) (k30R k b) (A.k30 k' b') := by
  have a0 := H.near.nonneg
  have e0 := A.e_nonneg
  have ee := H.e_le
  have ec := H.cover
  have et := H.t_nonneg
  have b0 := abs_nonneg b
  have h1 := A.mul_near H.near H.n1
  have h2 := ScaleNear.of_log (h1.mono (b := a + ε) (by linarith))
  have h3 := ScaleNear.of_log (H.n3.mono (b := a + ε) (by linarith))
  have h4 := (h3.add h2).rnd A.toFmt
  have hS : |k.k3| + |b * k.k1| ≤ 2 * (1 + |b|) * kapN k b := by
    have i1 := (k3_le_kN k).trans (kN_le k b)
    have i2 : |b * k.k1| ≤ |b| * kapN k b := by
      rw [abs_mul]
      exact mul_le_mul_of_nonneg_left ((k1_le_sN k).trans (sN_le_kapN k b)) b0
    have i3 := kapN_nonneg k b
    linarith
  have h5 := (h4.mono (b := a + 2 * ε) (by linarith) hS).rescale (by linarith) (t_le_kapN k b)
  exact h5.mono (le_of_eq H.unit.symm) le_rfl

theorem k30_sq : ScaleNear (2 * h + A.e) (kapN k b * kapN k b) (k30R k b * k30R k b) (A.sq (A.k30 k' b')) := by
  have := (H.k30.mul H.k30).rnd A.toFmt
  exact this.mono (by linarith) le_rfl

omit H in
theorem s_near (A : ShearFmt) (k : K3) : LogNear (2 * A.e) (sR k) (A.add (A.sq k.k1) (A.sq k.k2)) := by
  have h := fun x => (A.sq_near (LogNear.refl x)).mono (show 2 * 0 + A.e ≤ A.e by linarith)
  exact (A.add_near (h k.k1) (h k.k2) (mul_self_nonneg _) (mul_self_nonneg _)).mono (by linarith)

omit H in
theorem kk_near (A : ShearFmt) (k : K3) : LogNear (3 * A.e) (kkR k) (A.sumsq k.k1 k.k2 k.k3) := sumsq_near A.toFmt _ _ _

theorem sn : LogNear (2 * ε) (sR k) (A.add (A.sq k'.k1) (A.sq k'.k2)) := by
  have c := H.cover
  have q1 := (A.sq_near H.n1).mono (show 2 * t + A.e ≤ ε by linarith)
  have q2 := (A.sq_near H.n2).mono (show 2 * t + A.e ≤ ε by linarith)
  exact (A.add_near q1 q2 (mul_self_nonneg _) (mul_self_nonneg _)).mono (by linarith [H.e_le])

theorem kkn : LogNear (3 * ε) (kkR k) (A.sumsq k'.k1 k'.k2 k'.k3) := by
  have c := H.cover
  have q3 := (A.sq_near H.n3).mono (show 2 * t + A.e ≤ 2 * ε by linarith [H.ε_nonneg])
  exact (A.add_near H.sn q3 (sR_nonneg k) (mul_self_nonneg _)).mono (by linarith [H.e_le])

theorem kk0_scale : ScaleNear (5 * h) (kapN k b * kapN k b) (kk0R k b) (A.sumsq k'.k1 k'.k2 (A.k30 k' b')) := by
  have h1 := ScaleNear.of_log H.sn
  rw [abs_of_nonneg (sR_nonneg k)] at h1
  have f := H.four
  have e0 := A.e_nonneg
  have ee := H.e_le
  have ec := H.cover
  have et := H.t_nonneg
  have hh := H.h0
  have h2 := ((h1.mono (b := 2 * h + A.e) (by linarith) le_rfl).add H.k30_sq).rnd A.toFmt
  have hS : sR k + kapN k b * kapN k b ≤ 2 * (kapN k b * kapN k b) := by
    have := sN_le_kapN k b
    have := mul_self_le_mul_self (sN_nonneg k) this
    rw [sN_sq] at this
    linarith
  have e : sR k + k30R k b * k30R k b = kk0R k b := by unfold sR kk0R; ring
  rw [e] at h2
  have h3 := (h2.mono le_rfl hS).rescale (by norm_num) (by rw [kapN_sq, abs_of_nonneg (kk0R_nonneg k b)])
  exact h3.mono (by linarith) le_rfl

theorem kk0 : LogNear (10 * h) (kk0R k b) (A.sumsq k'.k1 k'.k2 (A.k30 k' b')) := by
  have h1 := H.kk0_scale
  rw [kapN_sq] at h1
  exact (h1.to_log (by linarith [H.h_small])).mono (by linarith)

theorem num : LogNear h (numR k b) (A.num k' b') := by
  have h1 := A.mul_near H.near H.n1
  have h2 := A.sqrt_near H.sn
  exact (A.mul_near h1 h2).mono (by linarith [H.e_le, H.cover, H.t_nonneg, A.e_nonneg, H.two, H.four])

theorem den : ScaleNear (12 * ((1 + |b|) * h)) (kapN k b * kN k) (denR k b) (A.den k' b') := by
  have b0 := abs_nonneg b
  have h1 := (H.k30.mul (ScaleNear.of_log H.n1)).rnd A.toFmt
  have h2 := (h1.mul (ScaleNear.of_log H.near)).rnd A.toFmt
  have f := H.four
  have g := H.two
  have h3 := (H.kk0_scale.sub (h2.mono (b := 5 * h) (by linarith [H.e_le, H.cover, H.t_nonneg, H.h0, A.e_nonneg]) le_rfl)).rnd A.toFmt
  have hS : kapN k b * kapN k b + kapN k b * |k.k1| * |b| ≤ (2 * (1 + |b|)) * (kapN k b * kN k) := by
    have i1 := mul_le_mul_of_nonneg_left (kapN_le k b) (kapN_nonneg k b)
    have i2 : |b| * |k.k1| ≤ |b| * kN k := mul_le_mul_of_nonneg_left ((k1_le_sN k).trans (sN_le_kN k)) b0
    have i3 := mul_le_mul_of_nonneg_left i2 (kapN_nonneg k b)
    have i4 := mul_nonneg (kapN_nonneg k b) (kN_nonneg k)
    linarith
  have h4 := (h3.mono (b := 6 * h) (by linarith [H.e_le, H.cover, H.t_nonneg, A.e_nonneg, H.h0]) hS).rescale (by linarith) (den_le k b)
  exact h4.mono (by linarith) le_rfl

theorem angle : LogNear (208 * ((1 + |b|) * h) + A.e) (atR k b) (A.atan2F (A.num k' b') (A.den k' b')) := by
  have hat : LogNear A.e (Complex.arg ⟨A.den k' b', A.num k' b'⟩) (A.atan2F (A.num k' b') (A.den k' b')) :=
    LogNear.of_rel A.v0 A.v1 (A.atan2_err _ _)
  refine LogNear.trans ?_ hat
  have hs := H.small
  have hB := H.le_B
  have h0 := H.h0
  have hz : atR k b = Complex.arg ⟨denR k b, numR k b⟩ := rfl
  have d := H.den
  rw [hz]
  rcases eq_or_ne (numR k b) 0 with h1 | h1
  · have hn : A.num k' b' = 0 := by
      obtain ⟨s, _, hs⟩ := H.num
      rw [hs, h1, zero_mul]
    -- parallel wavevectors: the inner product is positive
    have hd : denR k b = kapN k b * kN k := by
      have q := num_den_sq k b
      rw [h1] at q
      have q1 : 0 ≤ denR k b := by
        have e : denR k b = sR k + k.k3 * k.k3 + k.k3 * (b * k.k1) := by unfold denR kk0R k30R sR; ring
        have hs : b * k.k1 = 0 ∨ sR k = 0 := by
          unfold numR at h1
          rcases mul_eq_zero.1 h1 with h | h
          · exact Or.inl h
          · exact Or.inr ((Real.sqrt_eq_zero (sR_nonneg k)).1 h)
        rcases hs with h | h
        · rw [e, h, mul_zero, add_zero]; exact add_nonneg (sR_nonneg k) (mul_self_nonneg _)
        · have : k.k1 = 0 := by unfold sR at h; nlinarith [mul_self_nonneg k.k1, mul_self_nonneg k.k2]
          rw [e, this, mul_zero, mul_zero, add_zero]; exact add_nonneg (sR_nonneg k) (mul_self_nonneg _)
      have q2 : denR k b ^ 2 = (kapN k b * kN k) ^ 2 := by linarith
      exact (pow_left_inj₀ q1 (mul_nonneg (kapN_nonneg k b) (kN_nonneg k)) two_ne_zero).1 q2
    have hd' : 0 ≤ A.den k' b' := by
      have e1 := ScaleNear.exp_sub_one_le d.1 (by linarith)
      have r0 := mul_nonneg (kapN_nonneg k b) (kN_nonneg k)
      have e2 := mul_le_mul_of_nonneg_right (e1.trans (show 2 * (12 * ((1 + |b|) * h)) ≤ 1 by linarith)) r0
      have e3 := (abs_le.1 d.2.2).1
      linarith
    rw [h1, hn]
    have z : ∀ x : ℝ, 0 ≤ x → Complex.arg ⟨x, 0⟩ = 0 := fun x hx => Complex.arg_ofReal_of_nonneg hx
    rw [z _ hd', z _ (by rw [hd]; exact mul_nonneg (kapN_nonneg k b) (kN_nonneg k))]
    exact (LogNear.refl 0).mono (by linarith)
  · exact (arg_near h1 (num_den_sq k b) (mul_nonneg (kapN_nonneg k b) (kN_nonneg k)) d H.num (by linarith)).mono (by linarith)

theorem c2 (hk : k.k1 ≠ 0) : LogNear (220 * ((1 + |b|) * h)) (c2R k b) (A.c2 k' b') := by
  have h1 := A.mul_near H.n2 H.kk0
  have h2 := A.powGiven_near H.sn (sR_pos hk) (3 / 2)
  rw [abs_of_pos (by norm_num)] at h2
  exact (A.mul_near (A.div_near h1 h2) H.angle).mono (by linarith [H.e_le, H.cover, H.t_nonneg, A.e_nonneg, H.four, H.le_B, H.h0])

/-- Scale of the first coefficient. -/
def s1 (k : K3) (b : ℝ) : ℝ := 3 * (1 + |b|) * (|b| * (k.k1 * k.k1)) * (kapN k b * kapN k b) / (kkR k * sR k)

theorem c1 : ScaleNear (9 * h) (s1 k b) (c1R k b) (A.c1 k' b') := by
  have b0 := abs_nonneg b
  have f := H.four
  have g := H.two
  have a0 := H.near.nonneg
  have e0 := A.e_nonneg
  have ee := H.e_le
  have ec := H.cover
  have et := H.t_nonneg
  have hh := H.h0
  have p1 := A.mul_near H.near (A.sq_near H.n1)
  have p2 := ((ScaleNear.of_log (LogNear.refl (2:ℝ))).mul H.k30_sq).rnd A.toFmt
  have p3 := (H.kk0_scale.sub (p2.mono (b := 5 * h) (by linarith) le_rfl)).rnd A.toFmt
  have p4 := ((ScaleNear.of_log (A.mul_near H.near H.n1)).mul H.k30).rnd A.toFmt
  have p5 := (p3.add (p4.mono (b := 5 * h + A.e) (by linarith) le_rfl)).rnd A.toFmt
  have p6 := ((ScaleNear.of_log p1).mul p5).rnd A.toFmt
  have p7 := A.mul_near H.kkn H.sn
  have p8 := (p6.mul (ScaleNear.of_log p7.inv)).rnd A.toFmt
  rw [← div_eq_mul_inv, ← div_eq_mul_inv] at p8
  refine p8.mono (by linarith) ?_
  rw [abs_of_nonneg (inv_nonneg.2 (mul_nonneg (kkR_nonneg k) (sR_nonneg k))), ← div_eq_mul_inv]
  unfold s1
  refine div_le_div_of_nonneg_right ?_ (mul_nonneg (kkR_nonneg k) (sR_nonneg k))
  rw [abs_mul b (k.k1 * k.k1), abs_of_nonneg (mul_self_nonneg k.k1), abs_of_pos (by norm_num : (0:ℝ) < 2), abs_mul b k.k1]
  have i1 : |b| * |k.k1| * kapN k b ≤ |b| * kapN k b * kapN k b := by
    gcongr
    · exact kapN_nonneg k b
    · exact (k1_le_sN k).trans (sN_le_kapN k b)
  have i2 : kapN k b * kapN k b + 2 * (kapN k b * kapN k b) + |b| * |k.k1| * kapN k b ≤ 3 * (1 + |b|) * (kapN k b * kapN k b) := by
    have := mul_nonneg b0 (mul_self_nonneg (kapN k b))
    nlinarith
  have := mul_le_mul_of_nonneg_left i2 (mul_nonneg b0 (mul_self_nonneg k.k1))
  refine this.trans (le_of_eq (by ring))

omit H in
theorem pow_three_half (hk : k.k1 ≠ 0) : (sR k) ^ (3 / 2 : ℝ) = sR k * sN k := by
  have := Real.rpow_add (sR_pos hk) 1 (1 / 2)
  rw [Real.rpow_one, ← Real.sqrt_eq_rpow] at this
  rw [show (3 / 2 : ℝ) = 1 + 1 / 2 by norm_num, this]
  rfl

omit H in
theorem s1_le (hk : k.k1 ≠ 0) {t : ℝ} (ht : |t| * (k.k1 * k.k1) ≤ sR k) :
    |t| * s1 k b ≤ 3 * (1 + |b|) ^ 2 * (kk0R k b / kkR k) := by
  have b0 := abs_nonneg b
  have hq := kkR_pos hk
  have hs := sR_pos hk
  have e : |t| * s1 k b = 3 * (1 + |b|) * |b| * (kk0R k b / kkR k) * (|t| * (k.k1 * k.k1) / sR k) := by
    unfold s1
    rw [kapN_sq]
    field_simp
  have h1 : |t| * (k.k1 * k.k1) / sR k ≤ 1 := by rw [div_le_one hs]; exact ht
  have h2 : 0 ≤ kk0R k b / kkR k := div_nonneg (kk0R_nonneg k b) hq.le
  rw [e]
  calc _ ≤ 3 * (1 + |b|) * |b| * (kk0R k b / kkR k) * 1 := mul_le_mul_of_nonneg_left h1 (by positivity)
    _ ≤ _ := by nlinarith [mul_nonneg h2 b0]

omit H in
theorem c2_ratio (hk : k.k1 ≠ 0) {t : ℝ} (ht : |t| * (|k.k2| * |k.k1|) ≤ sR k) :
    |t * c2R k b| ≤ Real.pi * ((1 + |b|) ^ 2 * (kk0R k b / kkR k)) := by
  have b0 := abs_nonneg b
  have hq := kkR_pos hk
  have hs := sR_pos hk
  have hn : 0 < sN k := Real.sqrt_pos.2 hs
  have hr := angle_ratio k b hk
  have h0 := kk0R_nonneg k b
  have e : |t * c2R k b| = |t| * |k.k2| * (kk0R k b / kkR k) / (sR k * sN k) * (kkR k * |atR k b|) := by
    unfold c2R
    rw [pow_three_half hk, abs_mul, abs_mul, abs_div, abs_mul, abs_of_nonneg h0, abs_of_pos (mul_pos hs hn)]
    field_simp
  rw [e]
  refine (mul_le_mul_of_nonneg_left hr (by positivity)).trans ?_
  have e2 : |t| * |k.k2| * (kk0R k b / kkR k) / (sR k * sN k) * (Real.pi * ((1 + |b|) ^ 2 * (|k.k1| * sN k))) =
      Real.pi * ((1 + |b|) ^ 2 * (kk0R k b / kkR k)) * (|t| * (|k.k2| * |k.k1|) / sR k) := by
    field_simp
  rw [e2]
  have h1 : |t| * (|k.k2| * |k.k1|) / sR k ≤ 1 := by rw [div_le_one hs]; exact ht
  have := Real.pi_pos
  exact mul_le_of_le_one_right (by positivity) h1

omit H in
theorem cross_le (k : K3) : |k.k2| * |k.k1| ≤ sR k := by
  have h1 := mul_self_nonneg (|k.k2| - |k.k1|)
  have h2 := abs_mul_abs_self k.k1
  have h3 := abs_mul_abs_self k.k2
  unfold sR
  nlinarith [mul_self_nonneg k.k1, mul_self_nonneg k.k2]

omit H in
theorem zc3 (k : K3) (b : ℝ) : (zc k b).2.2 = kk0R k b / kkR k := by
  rcases eq_or_ne k.k1 0 with h | h
  · rcases eq_or_ne (kkR k) 0 with h0 | h0
    · rw [zc_zero h0, h0, div_zero]
    · rw [zc_k1_zero h h0]
      have : kk0R k b = kkR k := by unfold kk0R k30R kkR; rw [h]; ring
      rw [this, div_self h0]
  · rw [zc_generic h]
    rfl

omit H in
theorem zc12 {k : K3} (h : k.k1 = 0) (b : ℝ) : (zc k b).1 = 0 ∧ (zc k b).2.1 = 0 := by
  rcases eq_or_ne (kkR k) 0 with h0 | h0
  · rw [zc_zero h0]; exact ⟨rfl, rfl⟩
  · rw [zc_k1_zero h h0]; exact ⟨rfl, rfl⟩

theorem zeta1 : ScaleNear (221 * ((1 + |b|) * h)) (7 * (1 + |b|) ^ 2 * (kk0R k b / kkR k)) (zc k b).1 (A.zeta1 k' b') := by
  have b0 := abs_nonneg b
  have hh := H.h0
  have z3 : 0 ≤ kk0R k b / kkR k := div_nonneg (kk0R_nonneg k b) (kkR_nonneg k)
  rcases eq_or_ne k.k1 0 with h1 | h1
  · rw [(zc12 h1 b).1, ShearFmt.zeta1, if_pos (H.zero_iff.2 h1)]
    refine ⟨by positivity, by rw [abs_zero]; positivity, ?_⟩
    rw [sub_zero, abs_zero]
    exact mul_nonneg (ScaleNear.exp_sub_one_nonneg (by positivity)) (by positivity)
  · rw [zc_generic h1, ShearFmt.zeta1, if_neg (mt H.zero_iff.1 h1)]
    have f := H.four
    have g := H.le_B
    have e0 := A.e_nonneg
    have ee := H.e_le
    have ec := H.cover
    have et := H.t_nonneg
    have p1 := ScaleNear.of_log (A.mul_near (A.div_near H.n2 H.n1) (H.c2 h1))
    have p2 := ((H.c1.mono (b := 220 * ((1 + |b|) * h) + 2 * ε) (by linarith) le_rfl).sub (p1.mono (by linarith) le_rfl)).rnd A.toFmt
    refine p2.mono (by linarith) ?_
    have i1 := s1_le (b := b) h1 (t := 1) (by rw [abs_one, one_mul]; unfold sR; nlinarith [mul_self_nonneg k.k2])
    have i2 := c2_ratio (b := b) h1 (t := k.k2 / k.k1) (by
      rw [abs_div]
      have := abs_pos.2 h1
      rw [show |k.k2| / |k.k1| * (|k.k2| * |k.k1|) = |k.k2| * |k.k2| by field_simp, abs_mul_abs_self]
      unfold sR; nlinarith [mul_self_nonneg k.k1])
    rw [abs_one, one_mul] at i1
    have := Real.pi_le_four
    have i3 := mul_le_mul_of_nonneg_right this (show 0 ≤ (1 + |b|) ^ 2 * (kk0R k b / kkR k) by positivity)
    linarith

theorem zeta2 : ScaleNear (221 * ((1 + |b|) * h)) (7 * (1 + |b|) ^ 2 * (kk0R k b / kkR k)) (zc k b).2.1 (A.zeta2 k' b') := by
  have b0 := abs_nonneg b
  have hh := H.h0
  have z3 : 0 ≤ kk0R k b / kkR k := div_nonneg (kk0R_nonneg k b) (kkR_nonneg k)
  rcases eq_or_ne k.k1 0 with h1 | h1
  · rw [(zc12 h1 b).2, ShearFmt.zeta2, if_pos (H.zero_iff.2 h1)]
    refine ⟨by positivity, by rw [abs_zero]; positivity, ?_⟩
    rw [sub_zero, abs_zero]
    exact mul_nonneg (ScaleNear.exp_sub_one_nonneg (by positivity)) (by positivity)
  · rw [zc_generic h1, ShearFmt.zeta2, if_neg (mt H.zero_iff.1 h1)]
    have f := H.four
    have g := H.le_B
    have e0 := A.e_nonneg
    have ee := H.e_le
    have ec := H.cover
    have et := H.t_nonneg
    have p0 := ((ScaleNear.of_log (A.div_near H.n2 H.n1)).mul H.c1).rnd A.toFmt
    have p1 := ScaleNear.of_log (H.c2 h1)
    have p2 := ((p0.mono (b := 220 * ((1 + |b|) * h)) (by linarith) le_rfl).add p1).rnd A.toFmt
    refine p2.mono (by linarith) ?_
    have hp := abs_pos.2 h1
    have i1 := s1_le (b := b) h1 (t := k.k2 / k.k1) (by
      rw [abs_div, ← abs_mul_abs_self k.k1, show |k.k2| / |k.k1| * (|k.k1| * |k.k1|) = |k.k2| * |k.k1| by field_simp]
      exact cross_le k)
    have i2 := c2_ratio (b := b) h1 (t := 1) (by rw [abs_one, one_mul]; exact cross_le k)
    rw [one_mul] at i2
    have := Real.pi_le_four
    have i3 := mul_le_mul_of_nonneg_right this (show 0 ≤ (1 + |b|) ^ 2 * (kk0R k b / kkR k) by positivity)
    linarith

theorem zeta3 : LogNear (11 * h) (zc k b).2.2 (A.zeta3 k' b') := by
  rw [zc3]
  exact (A.div_near H.kk0 H.kkn).mono (by linarith [H.e_le, H.cover, H.t_nonneg, H.four])

theorem const_near {L E0 R : ℝ} (hL : 0 < L) (h1 : |Real.log L| ≤ R) (h2 : Real.log (1 + L ^ 2 * kk0R k b) ≤ R) :
    LogNear (20 * h + (9 + 5 * R) * A.e) (constR L E0 (kk0R k b)) (A.const L E0 (A.sumsq k'.k1 k'.k2 (A.k30 k' b'))) := by
  have e0 := A.e_nonneg
  have ee := H.e_le
  have ec := H.cover
  have et := H.t_nonneg
  have R0 := (abs_nonneg _).trans h1
  have hh := H.h0
  have kk0 := kk0R_nonneg k b
  have a1 := A.powLit_near (LogNear.refl L) hL h1 (17 / 3)
  have a2 := A.div_near (A.mul_near (LogNear.refl E0) a1) (A.rnd_near (4 * Real.pi))
  have b1 := A.mul_near (A.sq_near (LogNear.refl L)) H.kk0
  have b2 := A.add_near (one_near A.toFmt b1.nonneg) b1 zero_le_one (by positivity)
  rw [← pow_two] at b2
  have hp : 0 < 1 + L ^ 2 * kk0R k b := by positivity
  have b3 := A.powLit_near b2 hp (R := R)
    (by rw [abs_of_nonneg (Real.log_nonneg (by nlinarith [mul_nonneg (sq_nonneg L) kk0]))]; exact h2) (17 / 6)
  refine (A.sqrt_near (A.div_near a2 b3)).mono ?_
  rw [abs_of_pos (by norm_num), abs_of_pos (by norm_num)]
  have es : A.e ≤ 1 / 832 := by linarith [H.four, H.h_small]
  have p1 : A.e * h ≤ 1 / 832 * h := mul_le_mul_of_nonneg_right es hh
  have p2 : A.e * A.e ≤ 1 / 832 * A.e := mul_le_mul_of_nonneg_right es e0
  have p3 : 0 ≤ A.e * R := mul_nonneg e0 R0
  nlinarith

/-- The matrix before the distortion. -/
def t0 (c : ℝ) (k : K3) (b : ℝ) : Fin 3 → Fin 3 → ℝ :=
  ![![0, -c * k30R k b, c * k.k2], ![c * k30R k b, 0, -c * k.k1], ![-c * k.k2, c * k.k1, 0]]

theorem tmp_near {L E0 g : ℝ} (hc : LogNear g (constR L E0 (kk0R k b)) (A.const L E0 (A.sumsq k'.k1 k'.k2 (A.k30 k' b')))) :
    (∀ i j, ScaleNear (g + h + ε) (constR L E0 (kk0R k b) * kapN k b) (t0 (constR L E0 (kk0R k b)) k b i j) (A.tmp L E0 k' b' i j)) ∧
    ∀ j, LogNear (g + ε) (t0 (constR L E0 (kk0R k b)) k b 2 j) (A.tmp L E0 k' b' 2 j) := by
  obtain ⟨c, hcc⟩ : ∃ c, c = constR L E0 (kk0R k b) := ⟨_, rfl⟩
  rw [← hcc] at hc ⊢
  have c0 : 0 ≤ c := by rw [hcc]; exact Real.sqrt_nonneg _
  have hh := H.h0
  have e0 := A.e_nonneg
  have ee := H.e_le
  have ec := H.cover
  have et := H.t_nonneg
  have g0 := hc.nonneg
  have κ0 := kapN_nonneg k b
  have hz : ∀ S : ℝ, 0 ≤ S → ScaleNear (g + h + ε) S 0 0 := fun S hS =>
    ⟨by linarith, by simpa using hS, by
      rw [sub_zero, abs_zero]; exact mul_nonneg (ScaleNear.exp_sub_one_nonneg (by linarith)) hS⟩
  have sc := ScaleNear.of_log hc
  rw [abs_of_nonneg c0] at sc
  have sn := sc.neg
  have t1 := (sc.mul H.k30).rnd A.toFmt
  have t2 := (sn.mul H.k30).rnd A.toFmt
  have lp : ∀ {x x' : ℝ}, LogNear t x x' →
      LogNear (g + ε) (c * x) (A.mul (A.const L E0 (A.sumsq k'.k1 k'.k2 (A.k30 k' b'))) x') := fun hx =>
    (A.mul_near hc hx).mono (by linarith)
  have ln : ∀ {x x' : ℝ}, LogNear t x x' →
      LogNear (g + ε) (-c * x) (A.mul (-A.const L E0 (A.sumsq k'.k1 k'.k2 (A.k30 k' b'))) x') := fun hx =>
    (A.mul_near hc.neg hx).mono (by linarith)
  have sp : ∀ {x x' : ℝ}, LogNear t x x' → |x| ≤ kapN k b →
      ScaleNear (g + h + ε) (c * kapN k b) (c * x) (A.mul (A.const L E0 (A.sumsq k'.k1 k'.k2 (A.k30 k' b'))) x') := fun hn hx =>
    (ScaleNear.of_log (lp hn)).mono (by linarith) (by rw [abs_mul, abs_of_nonneg c0]; exact mul_le_mul_of_nonneg_left hx c0)
  have sm : ∀ {x x' : ℝ}, LogNear t x x' → |x| ≤ kapN k b →
      ScaleNear (g + h + ε) (c * kapN k b) (-c * x) (A.mul (-A.const L E0 (A.sumsq k'.k1 k'.k2 (A.k30 k' b'))) x') := fun hn hx =>
    (ScaleNear.of_log (ln hn)).mono (by linarith) (by rw [abs_mul, abs_neg, abs_of_nonneg c0]; exact mul_le_mul_of_nonneg_left hx c0)
  have l1 := (k1_le_sN k).trans (sN_le_kapN k b)
  have l2 := (k2_le_sN k).trans (sN_le_kapN k b)
  have z := hz (c * kapN k b) (mul_nonneg c0 κ0)
  constructor
  · intro i j
    fin_cases i <;> fin_cases j
    · exact z
    · exact t2.mono (by linarith) le_rfl
    · exact sp H.n2 l2
    · exact t1.mono (by linarith) le_rfl
    · exact z
    · exact sm H.n1 l1
    · exact sm H.n2 l2
    · exact sp H.n1 l1
    · exact z
  · intro j
    fin_cases j
    · exact ln H.n2
    · exact lp H.n1
    · exact (LogNear.refl 0).mono (by linarith)

omit H in
theorem t0_row2 {c : ℝ} (c0 : 0 ≤ c) (k : K3) (b : ℝ) (j : Fin 3) : |t0 c k b 2 j| ≤ c * sN k := by
  have s0 := sN_nonneg k
  fin_cases j
  · change |-c * k.k2| ≤ _
    rw [abs_mul, abs_neg, abs_of_nonneg c0]
    exact mul_le_mul_of_nonneg_left (k2_le_sN k) c0
  · change |c * k.k1| ≤ _
    rw [abs_mul, abs_of_nonneg c0]
    exact mul_le_mul_of_nonneg_left (k1_le_sN k) c0
  · change |(0:ℝ)| ≤ _
    rw [abs_zero]
    positivity

omit H in
/-- The entries of the exact kernel from those of the matrix before the distortion. -/
theorem ker_rows (c : ℝ) (k : K3) (b : ℝ) (j : Fin 3) :
    c * kerR k b 0 j = t0 c k b 0 j + (zc k b).1 * t0 c k b 2 j ∧ c * kerR k b 1 j = t0 c k b 1 j + (zc k b).2.1 * t0 c k b 2 j ∧
    c * kerR k b 2 j = (zc k b).2.2 * t0 c k b 2 j := by
  fin_cases j <;> simp [kerR, t0] <;> refine ⟨?_, ?_, ?_⟩ <;> ring

omit H in
/-- The scale of the errors compared with the Frobenius norm of the exact kernel. -/
theorem scale_le {c : ℝ} (c0 : 0 ≤ c) (k : K3) (b : ℝ) (hz : |(zc k b).1| ≤ 7 * (1 + |b|) ^ 2 * (kk0R k b / kkR k)) :
    c * kapN k b + 7 * (1 + |b|) ^ 2 * (kk0R k b / kkR k) * (c * sN k) ≤
      16 * (1 + |b|) ^ 2 * Real.sqrt (∑ i, ∑ j, (c * kerR k b i j) ^ 2) := by
  have b0 := abs_nonneg b
  obtain ⟨N, hN⟩ : ∃ N, N = Real.sqrt (∑ i, ∑ j, (c * kerR k b i j) ^ 2) := ⟨_, rfl⟩
  obtain ⟨ζ, hζ⟩ : ∃ ζ, ζ = kk0R k b / kkR k := ⟨_, rfl⟩
  have ζ0 : 0 ≤ ζ := by rw [hζ]; exact div_nonneg (kk0R_nonneg k b) (kkR_nonneg k)
  have s0 := sN_nonneg k
  have N0 : 0 ≤ N := by rw [hN]; exact Real.sqrt_nonneg _
  have rows := ker_rows c k b
  have sub : ∀ {x : ℝ}, 0 ≤ x → x ^ 2 ≤ ∑ i, ∑ j, (c * kerR k b i j) ^ 2 → x ≤ N := fun hx h => by
    rw [hN]; exact Real.le_sqrt_of_sq_le h
  have tot : ∑ i, ∑ j, (c * kerR k b i j) ^ 2 = ((c * kerR k b 0 0) ^ 2 + (c * kerR k b 0 1) ^ 2 + (c * kerR k b 0 2) ^ 2) +
      ((c * kerR k b 1 0) ^ 2 + (c * kerR k b 1 1) ^ 2 + (c * kerR k b 1 2) ^ 2) +
      ((c * kerR k b 2 0) ^ 2 + (c * kerR k b 2 1) ^ 2 + (c * kerR k b 2 2) ^ 2) := by
    simp only [Fin.sum_univ_three]
  have nn : ∀ i j, 0 ≤ (c * kerR k b i j) ^ 2 := fun i j => sq_nonneg _
  have sq := sN_sq k
  have e02 : c * kerR k b 0 2 = c * k.k2 := by rw [(rows 2).1]; simp [t0]
  have e12 : c * kerR k b 1 2 = -c * k.k1 := by rw [(rows 2).2.1]; simp [t0]
  have e20 : c * kerR k b 2 0 = ζ * (-c * k.k2) := by rw [(rows 0).2.2, ShearSetting.zc3, hζ]; rfl
  have e21 : c * kerR k b 2 1 = ζ * (c * k.k1) := by rw [(rows 1).2.2, ShearSetting.zc3, hζ]; rfl
  have e01 : c * kerR k b 0 1 = -c * k30R k b + (zc k b).1 * (c * k.k1) := by rw [(rows 1).1]; rfl
  have sv : sR k = k.k1 * k.k1 + k.k2 * k.k2 := rfl
  have i1 : c * sN k ≤ N := by
    refine sub (by positivity) ?_
    rw [tot, e02, e12]
    have : (c * sN k) ^ 2 = (c * k.k2) ^ 2 + (-c * k.k1) ^ 2 := by
      rw [mul_pow, pow_two (sN k), sq, sv]; ring
    rw [this]
    linarith [nn 0 0, nn 0 1, nn 1 0, nn 1 1,
      nn 2 0, nn 2 1, nn 2 2]
  have i2 : ζ * (c * sN k) ≤ N := by
    refine sub (by positivity) ?_
    rw [tot, e20, e21]
    have : (ζ * (c * sN k)) ^ 2 = (ζ * (-c * k.k2)) ^ 2 + (ζ * (c * k.k1)) ^ 2 := by
      rw [mul_pow, mul_pow c, pow_two (sN k), sq, sv]; ring
    rw [this]
    linarith [nn 0 0, nn 0 1, nn 0 2, nn 1 0,
      nn 1 1, nn 1 2, nn 2 2]
  have i3 : |c * kerR k b 0 1| ≤ N := by
    refine sub (abs_nonneg _) ?_
    rw [sq_abs, tot]
    linarith [nn 0 0, nn 0 2, nn 1 0, nn 1 1,
      nn 1 2, nn 2 0, nn 2 1, nn 2 2]
  have i4 : c * |k30R k b| ≤ N + 7 * (1 + |b|) ^ 2 * N := by
    have h1 : c * |k30R k b| = |(zc k b).1 * (c * k.k1) - c * kerR k b 0 1| := by
      rw [e01, show (zc k b).1 * (c * k.k1) - (-c * k30R k b + (zc k b).1 * (c * k.k1)) = c * k30R k b by ring, abs_mul,
        abs_of_nonneg c0]
    have h2 : |(zc k b).1 * (c * k.k1)| ≤ 7 * (1 + |b|) ^ 2 * N := by
      rw [abs_mul, abs_mul, abs_of_nonneg c0]
      have h3 : c * |k.k1| ≤ c * sN k := mul_le_mul_of_nonneg_left (k1_le_sN k) c0
      rw [← hζ] at hz
      calc |(zc k b).1| * (c * |k.k1|) ≤ 7 * (1 + |b|) ^ 2 * ζ * (c * sN k) := mul_le_mul hz h3 (by positivity) (by positivity)
        _ = 7 * (1 + |b|) ^ 2 * (ζ * (c * sN k)) := by ring
        _ ≤ _ := mul_le_mul_of_nonneg_left i2 (by positivity)
    rw [h1]
    exact (abs_sub _ _).trans (by linarith)
  have i5 : c * kapN k b ≤ c * |k30R k b| + c * sN k := by
    rw [← mul_add]
    exact mul_le_mul_of_nonneg_left (kapN_le_sum k b) c0
  have i6 : 7 * (1 + |b|) ^ 2 * ζ * (c * sN k) ≤ 7 * (1 + |b|) ^ 2 * N := by
    rw [mul_assoc]
    exact mul_le_mul_of_nonneg_left i2 (by positivity)
  have i7 : N ≤ (1 + |b|) ^ 2 * N := by exact le_mul_of_one_le_left N0 (one_le_pow₀ (by linarith))
  rw [← hζ, ← hN]
  linarith

theorem entries {L E0 R : ℝ} (hL : 0 < L) (h1 : |Real.log L| ≤ R) (h2 : Real.log (1 + L ^ 2 * kk0R k b) ≤ R) (i j : Fin 3) :
    |A.shear L E0 k' b' i j - constR L E0 (kk0R k b) * kerR k b i j| ≤
      16 * (1 + |b|) ^ 2 * (Real.exp (242 * ((1 + |b|) * h) + (9 + 5 * R) * A.e) - 1) *
        Real.sqrt (∑ i, ∑ j, (constR L E0 (kk0R k b) * kerR k b i j) ^ 2) := by
  have hc := H.const_near (E0 := E0) hL h1 h2
  have tm := H.tmp_near hc
  obtain ⟨c, hcc⟩ : ∃ c, c = constR L E0 (kk0R k b) := ⟨_, rfl⟩
  rw [← hcc] at tm ⊢
  have c0 : 0 ≤ c := by rw [hcc]; exact Real.sqrt_nonneg _
  have b0 := abs_nonneg b
  have hh := H.h0
  have e0 := A.e_nonneg
  have ee := H.e_le
  have ec := H.cover
  have et := H.t_nonneg
  have f := H.four
  have g := H.le_B
  have R0 := (abs_nonneg _).trans h1
  have s0 := sN_nonneg k
  have Re : 0 ≤ (9 + 5 * R) * A.e := by positivity
  have ζ0 : 0 ≤ kk0R k b / kkR k := div_nonneg (kk0R_nonneg k b) (kkR_nonneg k)
  have sl := scale_le c0 k b H.zeta1.2.1
  have x0 : 0 ≤ Real.exp (242 * ((1 + |b|) * h) + (9 + 5 * R) * A.e) - 1 := ScaleNear.exp_sub_one_nonneg (by linarith)
  have row2 : ∀ j, ScaleNear (20 * h + (9 + 5 * R) * A.e + ε) (c * sN k) (t0 c k b 2 j) (A.tmp L E0 k' b' 2 j) := fun j =>
    (ScaleNear.of_log (tm.2 j)).mono le_rfl (t0_row2 c0 k b j)
  have fin : ∀ {x y : ℝ}, ScaleNear (242 * ((1 + |b|) * h) + (9 + 5 * R) * A.e)
      (c * kapN k b + 7 * (1 + |b|) ^ 2 * (kk0R k b / kkR k) * (c * sN k)) x y →
      |y - x| ≤ 16 * (1 + |b|) ^ 2 * (Real.exp (242 * ((1 + |b|) * h) + (9 + 5 * R) * A.e) - 1) *
        Real.sqrt (∑ i, ∑ j, (c * kerR k b i j) ^ 2) := by
    intro x y hxy
    refine hxy.2.2.trans ((mul_le_mul_of_nonneg_left sl x0).trans (le_of_eq (by ring)))
  have row : ∀ (z z' : ℝ) (i : Fin 3), ScaleNear (221 * ((1 + |b|) * h)) (7 * (1 + |b|) ^ 2 * (kk0R k b / kkR k)) z z' → ∀ j,
      |A.add (A.tmp L E0 k' b' i j) (A.mul z' (A.tmp L E0 k' b' 2 j)) - (t0 c k b i j + z * t0 c k b 2 j)| ≤
        16 * (1 + |b|) ^ 2 * (Real.exp (242 * ((1 + |b|) * h) + (9 + 5 * R) * A.e) - 1) *
          Real.sqrt (∑ i, ∑ j, (c * kerR k b i j) ^ 2) := by
    intro z z' i hz j
    have p1 := (hz.mul (row2 j)).rnd A.toFmt
    have p2 := ((tm.1 i j).mono (b := 221 * ((1 + |b|) * h) + (20 * h + (9 + 5 * R) * A.e + ε) + A.e) (by linarith) le_rfl).add p1
    exact fin ((p2.rnd A.toFmt).mono (by linarith) le_rfl)
  fin_cases i
  · have := row _ _ 0 H.zeta1 j
    rw [← (ker_rows c k b j).1] at this
    exact this
  · have := row _ _ 1 H.zeta2 j
    rw [← (ker_rows c k b j).2.1] at this
    exact this
  · have p := ((ScaleNear.of_log H.zeta3).mul (row2 j)).rnd A.toFmt
    have hx : |(zc k b).2.2| * (c * sN k) ≤ c * kapN k b + 7 * (1 + |b|) ^ 2 * (kk0R k b / kkR k) * (c * sN k) := by
      rw [ShearSetting.zc3, abs_of_nonneg ζ0]
      have i1 : 0 ≤ c * kapN k b := mul_nonneg c0 (kapN_nonneg k b)
      have i2 : 0 ≤ kk0R k b / kkR k * (c * sN k) := by positivity
      nlinarith [mul_nonneg b0 i2, mul_nonneg (mul_nonneg b0 b0) i2]
    have := fin (p.mono (by linarith) hx)
    rw [← (ker_rows c k b j).2.2] at this
    exact this

end ShearSetting

/-- The kernel at a wavevector `k'` whose components have relative errors `t`. -/
theorem kernel_near (A : ShearFmt) {L E0 R : ℝ} (hL : 0 < L) (hE : 0 ≤ E0) {k k' : K3} {b b' a t ε : ℝ} (hb : LogNear a b b')
    (n1 : LogNear t k.k1 k'.k1) (n2 : LogNear t k.k2 k'.k2) (n3 : LogNear t k.k3 k'.k3) (hε : A.e + 2 * t ≤ ε)
    (hs : 416 * (1 + |b|) ^ 2 * (a + 2 * ε) ≤ 1) (h1 : |Real.log L| ≤ R)
    (h2 : Real.log (1 + L ^ 2 * (k.k1 ^ 2 + k.k2 ^ 2 + (k.k3 + b * k.k1) ^ 2)) ≤ R) :
    ∃ G : Fin 3 → Fin 3 → ℝ, (∀ i j, shearKernel L E0 k (fin b) i j = fin (G i j)) ∧
      ∀ i j, |A.shear L E0 k' b' i j - G i j| ≤
        16 * (1 + |b|) ^ 2 * (Real.exp (484 * (1 + |b|) ^ 2 * (a + 2 * ε) + (9 + 5 * R) * A.e) - 1) *
          Real.sqrt (∑ i, ∑ j, G i j ^ 2) := by
  refine ⟨fun i j => constR L E0 (kk0R k b) * kerR k b i j, fun i j => shearKernel_fin hL hE i j, fun i j => ?_⟩
  have H : ShearSetting A k k' b b' a t ε (2 * (1 + |b|) * (a + 2 * ε)) :=
    ⟨hb, n1, n2, n3, hε, rfl, le_trans (le_of_eq (by ring)) hs⟩
  have e : k.k1 ^ 2 + k.k2 ^ 2 + (k.k3 + b * k.k1) ^ 2 = kk0R k b := by unfold kk0R k30R; ring
  rw [e] at h2
  have := H.entries (E0 := E0) hL h1 h2 i j
  rw [show 242 * ((1 + |b|) * (2 * (1 + |b|) * (a + 2 * ε))) = 484 * (1 + |b|) ^ 2 * (a + 2 * ε) by ring] at this
  exact this

/-- **C143** Rounding errors of the sheared kernel (Mann and DRD).  For a computed lifetime with relative error `a`, every entry of the
computed matrix differs from that of the exact kernel by a small multiple of the Frobenius norm of the exact kernel.  The bound holds
for all wavevectors, however close to the axes; it depends on the lifetime, the format and, through `R`, on the logarithm of the
length scale. -/
theorem C143_kernel (A : ShearFmt) {L E0 R : ℝ} (hL : 0 < L) (hE : 0 ≤ E0) (k : K3) {b b' a : ℝ} (hb : LogNear a b b')
    (hs : 416 * (1 + |b|) ^ 2 * (a + 2 * A.e) ≤ 1) (h1 : |Real.log L| ≤ R)
    (h2 : Real.log (1 + L ^ 2 * (k.k1 ^ 2 + k.k2 ^ 2 + (k.k3 + b * k.k1) ^ 2)) ≤ R) :
    ∃ G : Fin 3 → Fin 3 → ℝ, (∀ i j, shearKernel L E0 k (fin b) i j = fin (G i j)) ∧
      ∀ i j, |A.shear L E0 k b' i j - G i j| ≤
        16 * (1 + |b|) ^ 2 * (Real.exp (484 * (1 + |b|) ^ 2 * (a + 2 * A.e) + (9 + 5 * R) * A.e) - 1) *
          Real.sqrt (∑ i, ∑ j, G i j ^ 2) :=
  kernel_near A hL hE hb (LogNear.refl _) (LogNear.refl _) (LogNear.refl _) (by linarith) hs h1 h2

/-! ### Mann's lifetime -/

/-- The hypergeometric function of Mann's lifetime has logarithmic slope between `-1/3` and `0`. -/
theorem mann_hyp_near {hyp : ℝ → ℝ} (hy : IsMannHyp hyp) {t y y' : ℝ} (h : LogNear t y y') (hy0 : 0 < y) :
    LogNear (t / 3) (hyp (-y)) (hyp (-y')) := by
  have key : ∀ {y y' : ℝ}, 0 < y → y < y' → LogNear t y y' → LogNear (t / 3) (hyp (-y)) (hyp (-y')) := by
    intro y y' h0 hlt hn
    have h0' := h0.trans hlt
    have p1 := hy.mann_hyp_pos (z := -y) (by linarith)
    have p2 := hy.mann_hyp_pos (z := -y') (by linarith)
    have t0 := hn.nonneg
    -- `y = κ ^ (-2)`
    have inv : ∀ {u : ℝ}, 0 < u → (u ^ (-1 / 2 : ℝ)) ^ (-2 : ℝ) = u := fun hu => by
      rw [← Real.rpow_mul hu.le]; norm_num
    have hκ' : 0 < y' ^ (-1 / 2 : ℝ) := Real.rpow_pos_of_pos h0' _
    have hκ : 0 < y ^ (-1 / 2 : ℝ) := Real.rpow_pos_of_pos h0 _
    have hkk : y' ^ (-1 / 2 : ℝ) < y ^ (-1 / 2 : ℝ) := Real.rpow_lt_rpow_of_neg h0 hlt (by norm_num)
    obtain ⟨τ', τ, e', e, _, _, hA, hB, _, _⟩ := C90_slopes hy hκ' hkk
    rw [mannTau_eq hy hκ'] at e'
    rw [mannTau_eq hy hκ] at e
    have e' : mannTau hyp (y' ^ (-1 / 2 : ℝ)) = τ' := by simpa using e'
    have e : mannTau hyp (y ^ (-1 / 2 : ℝ)) = τ := by simpa using e
    rw [← e', ← e, mul_mannTau hy hκ', mul_mannTau hy hκ, inv h0, inv h0'] at hB
    have third : ∀ {u : ℝ}, 0 < u → (u ^ (-1 / 2 : ℝ)) ^ (-2 / 3 : ℝ) = u ^ (1 / 3 : ℝ) := fun hu => by
      rw [← Real.rpow_mul hu.le]; norm_num
    rw [third h0, third h0'] at hB
    have q1 : 0 < y ^ (1 / 3 : ℝ) * hyp (-y) := by positivity
    have q2 : 0 < y' ^ (1 / 3 : ℝ) * hyp (-y') := by positivity
    have hC : y ^ (1 / 3 : ℝ) * hyp (-y) < y' ^ (1 / 3 : ℝ) * hyp (-y') :=
      (Real.rpow_lt_rpow_iff_of_neg q2 q1 (by norm_num)).1 hB
    have hm := hy.mann_hyp_mono (Set.mem_Iic.2 (by linarith : -y' ≤ 0)) (Set.mem_Iic.2 (by linarith : -y ≤ 0)) (neg_lt_neg hlt)
    have hr := (hn.rpow h0 (1 / 3)).bounds (by positivity)
    rw [abs_of_pos (by norm_num)] at hr
    have y3 : 0 < y ^ (1 / 3 : ℝ) := by positivity
    refine LogNear.of_bounds p1.le (by positivity) ?_ ?_
    · have h1 : y ^ (1 / 3 : ℝ) * hyp (-y) ≤ y ^ (1 / 3 : ℝ) * Real.exp (1 / 3 * t) * hyp (-y') :=
        hC.le.trans (mul_le_mul_of_nonneg_right hr.2 p2.le)
      have h2 : hyp (-y) ≤ Real.exp (1 / 3 * t) * hyp (-y') := by
        rw [mul_assoc] at h1
        exact le_of_mul_le_mul_left h1 y3
      rw [Real.exp_neg, ← div_eq_mul_inv, div_le_iff₀ (Real.exp_pos _), show t / 3 = 1 / 3 * t by ring]
      linarith
    · have := Real.one_le_exp (show 0 ≤ t / 3 by positivity)
      nlinarith
  rcases lt_trichotomy y y' with h1 | h1 | h1
  · exact key hy0 h1 h
  · rw [h1]; exact (LogNear.refl _).mono (by have := h.nonneg; positivity)
  · exact (key (h.pos hy0) h1 h.symm).symm

/-- The sum of squares of perturbed components. -/
theorem sumsq_pert (A : ShearFmt) {k k' : K3} {t : ℝ} (m1 : LogNear t k.k1 k'.k1) (m2 : LogNear t k.k2 k'.k2)
    (m3 : LogNear t k.k3 k'.k3) : LogNear (3 * A.e + 2 * t) (kkR k) (A.sumsq k'.k1 k'.k2 k'.k3) := by
  have e0 := A.e_nonneg
  have h12 := A.add_near (A.sq_near m1) (A.sq_near m2) (mul_self_nonneg _) (mul_self_nonneg _)
  exact (A.add_near h12 ((A.sq_near m3).mono (show 2 * t + A.e ≤ 2 * t + A.e + A.e by linarith))
    (add_nonneg (mul_self_nonneg _) (mul_self_nonneg _)) (mul_self_nonneg _)).mono (by linarith)

/-- The lifetime at a wavevector `k'` whose components have relative errors `t`. -/
theorem lifetime_near (A : ShearFmt) (he : A.e ≤ 1 / 100) {hyp hypF : ℝ → ℝ} (hy : IsMannHyp hyp) {w : ℝ}
    (hw : ∀ z < 0, LogNear w (hyp z) (hypF z)) {L Gamma R t : ℝ} (hL : 0 < L) {k k' : K3} (m1 : LogNear t k.k1 k'.k1)
    (m2 : LogNear t k.k2 k'.k2) (m3 : LogNear t k.k3 k'.k3) (hk : k.vec ≠ 0)
    (hR : |Real.log ((k.k1 ^ 2 + k.k2 ^ 2 + k.k3 ^ 2) * L ^ 2)| ≤ R) :
    ∃ b, mannBeta hyp L Gamma k = fin b ∧ LogNear ((7 + R) * A.e + 2 * t + w) b (A.mannBeta hypF L Gamma k') := by
  have e0 := A.e_nonneg
  have t0 := m1.nonneg
  have R0 := (abs_nonneg _).trans hR
  have w0 : 0 ≤ w := (hw (-1) (by norm_num)).nonneg
  have e : k.k1 ^ 2 + k.k2 ^ 2 + k.k3 ^ 2 = kkR k := by unfold kkR; ring
  have hkk : 0 < kkR k := by
    refine lt_of_le_of_ne (kkR_nonneg k) fun h0 => hk ?_
    obtain ⟨a, b, c⟩ := kkR_eq_zero h0.symm
    funext i
    fin_cases i <;> simp [K3.vec, a, b, c]
  have hh : ∀ x < 0, 0 < hyp x := fun x hx => hy.mann_hyp_pos hx.le
  rw [e] at hR
  have hx : 0 < kkR k * L ^ 2 := by positivity
  have hb : mannBeta hyp L Gamma k =
      fin (Gamma * (kkR k * L ^ 2) ^ (-1 / 3 : ℝ) / Real.sqrt (hyp (-1 / (kkR k * L ^ 2)))) := by
    rw [mannBeta_eq Gamma hL hh, if_neg hkk.ne']
  refine ⟨_, hb, ?_⟩
  have n1 := sumsq_pert A m1 m2 m3
  have hkk' : A.sumsq k'.k1 k'.k2 k'.k3 ≠ 0 := (n1.pos hkk).ne'
  have n2 := A.mul_near n1 (A.sq_near (LogNear.refl L))
  rw [← pow_two] at n2
  have n3 := A.powLit_near n2 hx hR (-1 / 3)
  have n4 := A.mul_near (LogNear.refl Gamma) n3
  have n5 := A.div_near (LogNear.refl (-1)) n2
  have n6 : LogNear (7 / 3 * A.e + 2 / 3 * t + w) (hyp (-1 / (kkR k * L ^ 2)))
      (hypF (A.div (-1) (A.mul (A.sumsq k'.k1 k'.k2 k'.k3) (A.sq L)))) := by
    have n7 := n5.neg
    rw [neg_div, neg_neg] at n7
    have n8 := mann_hyp_near hy n7 (by positivity)
    rw [neg_neg] at n8
    have neg : A.div (-1) (A.mul (A.sumsq k'.k1 k'.k2 k'.k3) (A.sq L)) < 0 := by
      have := n7.pos (by positivity)
      linarith
    have n9 := n8.trans (hw _ neg)
    rw [show (-1 : ℝ) / (kkR k * L ^ 2) = -(1 / (kkR k * L ^ 2)) by ring]
    exact n9.mono (by linarith)
  have n10 := A.div_near n4 (A.sqrt_near n6)
  unfold ShearFmt.mannBeta
  rw [if_neg hkk']
  refine n10.mono ?_
  rw [abs_of_neg (by norm_num)]
  have p2 : A.e * A.e ≤ 1 / 100 * A.e := mul_le_mul_of_nonneg_right he e0
  have p3 : 0 ≤ A.e * R := mul_nonneg e0 R0
  have p4 : A.e * t ≤ 1 / 100 * t := mul_le_mul_of_nonneg_right he t0
  nlinarith

/-- **C143** The computed lifetime of the Mann generator: a small relative error at every wavevector, if the hypergeometric function
is computed with relative error `w` (as a factor between `exp (-w)` and `exp w`). -/
theorem C143_lifetime (A : ShearFmt) (he : A.e ≤ 1 / 100) {hyp hypF : ℝ → ℝ} (hy : IsMannHyp hyp) {w : ℝ}
    (hw : ∀ z < 0, LogNear w (hyp z) (hypF z)) {L Gamma R : ℝ} (hL : 0 < L) {k : K3} (hk : k.vec ≠ 0)
    (hR : |Real.log ((k.k1 ^ 2 + k.k2 ^ 2 + k.k3 ^ 2) * L ^ 2)| ≤ R) :
    ∃ b, mannBeta hyp L Gamma k = fin b ∧ LogNear ((7 + R) * A.e + w) b (A.mannBeta hypF L Gamma k) := by
  obtain ⟨b, hb, h⟩ := lifetime_near A he hy hw (Gamma := Gamma) hL (LogNear.refl _) (LogNear.refl _) (LogNear.refl _) hk hR
  exact ⟨b, hb, h.mono (by linarith)⟩

/-- **C143** The kernel of the Mann generator, from the arguments of its constructor and the wavevector to the matrix. -/
theorem C143_mann (A : ShearFmt) (he : A.e ≤ 1 / 100) {hyp hypF : ℝ → ℝ} (hy : IsMannHyp hyp) {w : ℝ}
    (hw : ∀ z < 0, LogNear w (hyp z) (hypF z)) {L E0 Gamma R : ℝ} (hL : 0 < L) (hE : 0 ≤ E0) {k : K3} (hk : k.vec ≠ 0)
    (hR : |Real.log ((k.k1 ^ 2 + k.k2 ^ 2 + k.k3 ^ 2) * L ^ 2)| ≤ R) (h1 : |Real.log L| ≤ R) :
    ∃ (b : ℝ) (G : Fin 3 → Fin 3 → ℝ), mannBeta hyp L Gamma k = fin b ∧ (∀ i j, mannKernel hyp L E0 Gamma k i j = fin (G i j)) ∧
      (416 * (1 + |b|) ^ 2 * ((9 + R) * A.e + w) ≤ 1 →
        Real.log (1 + L ^ 2 * (k.k1 ^ 2 + k.k2 ^ 2 + (k.k3 + b * k.k1) ^ 2)) ≤ R →
        ∀ i j, |A.shear L E0 k (A.mannBeta hypF L Gamma k) i j - G i j| ≤
          16 * (1 + |b|) ^ 2 * (Real.exp (484 * (1 + |b|) ^ 2 * ((9 + R) * A.e + w) + (9 + 5 * R) * A.e) - 1) *
            Real.sqrt (∑ i, ∑ j, G i j ^ 2)) := by
  obtain ⟨b, hb, hn⟩ := C143_lifetime A he hy hw (Gamma := Gamma) hL hk hR
  refine ⟨b, fun i j => constR L E0 (kk0R k b) * kerR k b i j, hb, fun i j => ?_, fun hs h2 => ?_⟩
  · unfold mannKernel
    rw [hb]
    exact shearKernel_fin hL hE i j
  · have ea : (7 + R) * A.e + w + 2 * A.e = (9 + R) * A.e + w := by ring
    obtain ⟨G, hG, h⟩ := C143_kernel A hL hE k hn (by rw [ea]; exact hs) h1 h2
    rw [ea] at h
    have : G = fun i j => constR L E0 (kk0R k b) * kerR k b i j := by
      funext i j
      have := (hG i j).symm.trans (shearKernel_fin hL hE i j)
      simpa using this
    rw [this] at h
    exact h

/-! ### The sampled field -/

section field
variable {n1 n2 n3 : ℕ} [NeZero n1] [NeZero n2] [NeZero n3]

/-- The computed `Spectrum_half` at frequencies `f` whose components have relative errors `t`. -/
theorem shear_half_near (A : ShearFmt) {L E0 R a B L1 L2 L3 t ε : ℝ} (hL : 0 < L) (hE : 0 ≤ E0)
    {kernel : K3 → Fin 3 → Fin 3 → Fl} {b b' : K3 → ℝ} {f : Box n1 n2 n3 → K3}
    (hker : ∀ k : Box n1 n2 n3, kernel (freqOf L1 L2 L3 k) = shearKernel L E0 (freqOf L1 L2 L3 k) (fin (b (freqOf L1 L2 L3 k))))
    (hq : ∀ k, LogNear t (freqOf L1 L2 L3 k).k1 (f k).k1 ∧ LogNear t (freqOf L1 L2 L3 k).k2 (f k).k2 ∧
      LogNear t (freqOf L1 L2 L3 k).k3 (f k).k3) (hε : A.e + 2 * t ≤ ε)
    (hb : ∀ k : Box n1 n2 n3, LogNear a (b (freqOf L1 L2 L3 k)) (b' (f k)))
    (hB : ∀ k : Box n1 n2 n3, 1 + |b (freqOf L1 L2 L3 k)| ≤ B) (hs : 416 * B ^ 2 * (a + 2 * ε) ≤ 1) (h1 : |Real.log L| ≤ R)
    (h2 : ∀ k : Box n1 n2 n3, let p := freqOf L1 L2 L3 k
      Real.log (1 + L ^ 2 * (p.k1 ^ 2 + p.k2 ^ 2 + (p.k3 + b p * p.k1) ^ 2)) ≤ R) (k : Box n1 n2 n3) :
    ∑ i, ∑ l, ‖A.shearHalf L E0 b' f k i l - spectrumHalf (spectrumOf kernel L1 L2 L3) k i l‖ ^ 2 ≤
      (48 * B ^ 2 * (Real.exp (484 * B ^ 2 * (a + 2 * ε) + (11 + 5 * R) * A.e) - 1)) ^ 2 *
        ∑ i, ∑ l, ‖spectrumHalf (spectrumOf kernel L1 L2 L3) k i l‖ ^ 2 := by
  have e0 := A.e_nonneg
  have a0 : 0 ≤ a := (hb 0).nonneg
  have ε0 : 0 ≤ ε := by linarith [(hq 0).1.nonneg]
  have R0 := (abs_nonneg _).trans h1
  have B1 : 1 ≤ B := by have := hB 0; linarith [abs_nonneg (b (freqOf L1 L2 L3 (0 : Box n1 n2 n3)))]
  obtain ⟨F, hF⟩ : ∃ F, F = 484 * B ^ 2 * (a + 2 * ε) + (9 + 5 * R) * A.e := ⟨_, rfl⟩
  have F0 : 0 ≤ F := by rw [hF]; positivity
  have hF' : 484 * B ^ 2 * (a + 2 * ε) + (11 + 5 * R) * A.e = F + 2 * A.e := by rw [hF]; ring
  rw [hF']
  have x0 : 0 ≤ Real.exp (F + 2 * A.e) - 1 := ScaleNear.exp_sub_one_nonneg (by linarith)
  obtain ⟨p, hp⟩ : ∃ p, p = freqOf L1 L2 L3 k := ⟨_, rfl⟩
  have hb0 := abs_nonneg (b p)
  have hBk := hB k
  rw [← hp] at hBk
  have hB2 : (1 + |b p|) ^ 2 ≤ B ^ 2 := pow_le_pow_left₀ (by linarith) hBk 2
  have m1 : (1 + |b p|) ^ 2 * (a + 2 * ε) ≤ B ^ 2 * (a + 2 * ε) := mul_le_mul_of_nonneg_right hB2 (by linarith)
  have hqk := hq k
  rw [← hp] at hqk
  obtain ⟨G, hG, hE'⟩ := kernel_near A hL hE (k := p) (k' := f k) (b := b p) (b' := b' (f k)) (by rw [hp]; exact hb k)
    hqk.1 hqk.2.1 hqk.2.2 hε (by linarith) h1 (by have := h2 k; rw [← hp] at this; exact this)
  obtain ⟨N, hN⟩ : ∃ N, N = Real.sqrt (∑ i, ∑ j, G i j ^ 2) := ⟨_, rfl⟩
  have N0 : 0 ≤ N := by rw [hN]; exact Real.sqrt_nonneg _
  have NN : N ^ 2 = ∑ i, ∑ j, G i j ^ 2 := by
    rw [hN]; exact Real.sq_sqrt (Finset.sum_nonneg fun i _ => Finset.sum_nonneg fun j _ => sq_nonneg _)
  obtain ⟨v, hv⟩ : ∃ v, v = Real.sqrt (voxels n1 n2 n3) := ⟨_, rfl⟩
  have v0 : 0 ≤ v := by rw [hv]; exact Real.sqrt_nonneg _
  have hle : ∀ i j, |G i j| ≤ N := by
    intro i j
    rw [hN]
    refine Real.abs_le_sqrt ?_
    have s1 : G i j ^ 2 ≤ ∑ j, G i j ^ 2 := Finset.single_le_sum (f := fun j => G i j ^ 2) (fun _ _ => sq_nonneg _) (Finset.mem_univ j)
    exact s1.trans (Finset.single_le_sum (f := fun i => ∑ j, G i j ^ 2) (fun _ _ => Finset.sum_nonneg fun _ _ => sq_nonneg _)
      (Finset.mem_univ i))
  have hent : ∀ i j, |A.mul (A.shear L E0 (f k) (b' (f k)) i j) (A.sqrt (voxels n1 n2 n3)) - G i j * v| ≤
      16 * B ^ 2 * (Real.exp (F + 2 * A.e) - 1) * (N * v) := by
    intro i j
    have s1 : ScaleNear F (16 * B ^ 2 * N) (G i j) (A.shear L E0 (f k) (b' (f k)) i j) := by
      refine ⟨F0, (hle i j).trans (by nlinarith [one_le_pow₀ (n := 2) B1]), (hE' i j).trans ?_⟩
      rw [← hN]
      have t1 : Real.exp (484 * (1 + |b p|) ^ 2 * (a + 2 * ε) + (9 + 5 * R) * A.e) - 1 ≤ Real.exp F - 1 := by
        rw [hF]
        refine sub_le_sub_right (Real.exp_le_exp.2 ?_) 1
        nlinarith
      have t2 : 0 ≤ Real.exp F - 1 := ScaleNear.exp_sub_one_nonneg F0
      calc _ ≤ 16 * (1 + |b p|) ^ 2 * (Real.exp F - 1) * N := by gcongr
        _ ≤ 16 * B ^ 2 * (Real.exp F - 1) * N := by gcongr
        _ = _ := by ring
    have s2 := ScaleNear.of_log (A.sqrt_near (LogNear.refl (voxels n1 n2 n3 : ℝ)))
    rw [← hv, abs_of_nonneg v0] at s2
    have s3 := ((s1.mul s2).rnd A.toFmt).mono (b := F + 2 * A.e) (by linarith) le_rfl
    exact s3.2.2.trans (le_of_eq (by ring))
  have hex : ∀ i l, spectrumHalf (spectrumOf kernel L1 L2 L3) k i l = Complex.I * ((G i l * v : ℝ) : ℂ) := by
    intro i l
    unfold spectrumHalf spectrumOf times1j
    rw [hker k, ← hp, hG, toReal_fin, ← hv]
    push_cast
    ring
  have nI : ∀ x : ℝ, ‖Complex.I * (x : ℂ)‖ ^ 2 = x ^ 2 := by
    intro x
    rw [norm_mul, Complex.norm_I, one_mul, Complex.norm_real, Real.norm_eq_abs, sq_abs]
  have lhs : ∀ i l, ‖A.shearHalf L E0 b' f k i l - spectrumHalf (spectrumOf kernel L1 L2 L3) k i l‖ ^ 2 ≤
      (16 * B ^ 2 * (Real.exp (F + 2 * A.e) - 1) * (N * v)) ^ 2 := by
    intro i l
    rw [hex]
    unfold ShearFmt.shearHalf
    rw [← mul_sub, ← Complex.ofReal_sub, nI, ← sq_abs]
    exact pow_le_pow_left₀ (abs_nonneg _) (hent i l) 2
  have tot : ∑ i, ∑ l, ‖spectrumHalf (spectrumOf kernel L1 L2 L3) k i l‖ ^ 2 = N ^ 2 * v ^ 2 := by
    rw [NN, Finset.sum_mul]
    refine Finset.sum_congr rfl fun i _ => ?_
    rw [Finset.sum_mul]
    refine Finset.sum_congr rfl fun l _ => ?_
    rw [hex, nI, mul_pow]
  rw [tot]
  refine (Finset.sum_le_sum fun i _ => Finset.sum_le_sum fun l _ => lhs i l).trans (le_of_eq ?_)
  simp only [Finset.sum_const, Finset.card_univ, Fintype.card_fin, nsmul_eq_mul]
  push_cast
  ring

/-- **C143** The field that the Mann or DRD generator samples on a grid: if the lifetimes `b` at all wavenumbers of the grid are at most
`B - 1` and are computed with relative error `a`, the field differs from the exact one, in the Euclidean norm, by a small multiple
of the bound `M ‖noise‖ / norm` of the exact field. -/
theorem C143_field (A : ShearFmt) {L E0 R a B M L1 L2 L3 norm η ε ν : ℝ} (hL : 0 < L) (hE : 0 ≤ E0) (hη : 0 ≤ η) (hε : 0 ≤ ε)
    (hν : 0 ≤ ν) (hM : 0 ≤ M) {kernel : K3 → Fin 3 → Fin 3 → Fl} {b b' : K3 → ℝ}
    (hker : ∀ k : Box n1 n2 n3, kernel (freqOf L1 L2 L3 k) = shearKernel L E0 (freqOf L1 L2 L3 k) (fin (b (freqOf L1 L2 L3 k))))
    (hb : ∀ k : Box n1 n2 n3, LogNear a (b (freqOf L1 L2 L3 k)) (b' (freqOf L1 L2 L3 k)))
    (hB : ∀ k : Box n1 n2 n3, 1 + |b (freqOf L1 L2 L3 k)| ≤ B) (hs : 416 * B ^ 2 * (a + 2 * A.e) ≤ 1) (h1 : |Real.log L| ≤ R)
    (h2 : ∀ k : Box n1 n2 n3, let p := freqOf L1 L2 L3 k
      Real.log (1 + L ^ 2 * (p.k1 ^ 2 + p.k2 ^ 2 + (p.k3 + b p * p.k1) ^ 2)) ≤ R)
    (hS : ∀ k : Box n1 n2 n3, ∑ i, ∑ l, ‖spectrumOf kernel L1 L2 L3 k i l‖ ^ 2 ≤ M ^ 2)
    {noise y : Box n1 n2 n3 → Fin 3 → ℝ} (hy : VfRounded (A.shearHalf L E0 b' (freqOf L1 L2 L3)) norm noise η ε ν y) :
    Real.sqrt (∑ x, ∑ i, (y x i - vfSample (spectrumOf kernel L1 L2 L3) norm noise x i) ^ 2) ≤
      ((1 + η) ^ 2 * (1 + 48 * B ^ 2 * (Real.exp (484 * B ^ 2 * (a + 2 * A.e) + (11 + 5 * R) * A.e) - 1)) * (1 + ε) * (1 + ν) - 1) *
        (M * Real.sqrt (∑ x, ∑ i, noise x i ^ 2) / (|norm| / Real.sqrt (voxels n1 n2 n3))) := by
  have e0 := A.e_nonneg
  have a0 : 0 ≤ a := (hb 0).nonneg
  have R0 := (abs_nonneg _).trans h1
  have x0 : 0 ≤ Real.exp (484 * B ^ 2 * (a + 2 * A.e) + (11 + 5 * R) * A.e) - 1 := ScaleNear.exp_sub_one_nonneg (by positivity)
  have key := shear_half_near A (t := 0) (ε := A.e) hL hE hker (fun k => ⟨LogNear.refl _, LogNear.refl _, LogNear.refl _⟩)
    (by linarith) hb hB hs h1 h2
  exact (C141_field hη (by positivity) hε hν hM hS key hy).2

/-- **C143** The field of the Mann generator, from the arguments of the constructor: `hyp2f1` computed with relative error `w`, lifetimes
on the grid at most `B - 1`. -/
theorem C143_mann_field (A : ShearFmt) (he : A.e ≤ 1 / 100) {hyp hypF : ℝ → ℝ} (hyp_ok : IsMannHyp hyp) {w : ℝ}
    (hw : ∀ z < 0, LogNear w (hyp z) (hypF z)) {L E0 Gamma R B M L1 L2 L3 norm η ε ν : ℝ} (hL : 0 < L) (hE : 0 ≤ E0) (hη : 0 ≤ η)
    (hε : 0 ≤ ε) (hν : 0 ≤ ν) (hM : 0 ≤ M) (h1 : |Real.log L| ≤ R)
    (hgrid : ∀ k : Box n1 n2 n3, let p := freqOf L1 L2 L3 k
      1 + |(mannBeta hyp L Gamma p).toReal| ≤ B ∧
      (p.vec ≠ 0 → |Real.log ((p.k1 ^ 2 + p.k2 ^ 2 + p.k3 ^ 2) * L ^ 2)| ≤ R) ∧
      Real.log (1 + L ^ 2 * (p.k1 ^ 2 + p.k2 ^ 2 + (p.k3 + (mannBeta hyp L Gamma p).toReal * p.k1) ^ 2)) ≤ R)
    (hs : 416 * B ^ 2 * ((9 + R) * A.e + w) ≤ 1)
    (hS : ∀ k : Box n1 n2 n3, ∑ i, ∑ l, ‖spectrumOf (GenKernel.mann hyp L E0 Gamma).eval L1 L2 L3 k i l‖ ^ 2 ≤ M ^ 2)
    {noise y : Box n1 n2 n3 → Fin 3 → ℝ}
    (hy : VfRounded (A.shearHalf L E0 (A.mannBeta hypF L Gamma) (freqOf L1 L2 L3)) norm noise η ε ν y) :
    Real.sqrt (∑ x, ∑ i, (y x i - vfSample (spectrumOf (GenKernel.mann hyp L E0 Gamma).eval L1 L2 L3) norm noise x i) ^ 2) ≤
      ((1 + η) ^ 2 * (1 + 48 * B ^ 2 * (Real.exp (484 * B ^ 2 * ((9 + R) * A.e + w) + (11 + 5 * R) * A.e) - 1)) * (1 + ε) * (1 + ν) - 1) *
        (M * Real.sqrt (∑ x, ∑ i, noise x i ^ 2) / (|norm| / Real.sqrt (voxels n1 n2 n3))) := by
  have hh : ∀ x < 0, 0 < hyp x := fun x hx => hyp_ok.mann_hyp_pos hx.le
  have ea : (7 + R) * A.e + w + 2 * A.e = (9 + R) * A.e + w := by ring
  have e0 := A.e_nonneg
  have R0 := (abs_nonneg _).trans h1
  have w0 : 0 ≤ w := (hw (-1) (by norm_num)).nonneg
  have hfin : ∀ p, mannBeta hyp L Gamma p = fin (mannBeta hyp L Gamma p).toReal := fun p => by
    rw [mannBeta_eq Gamma hL hh]; rfl
  have h := C143_field (n1 := n1) (n2 := n2) (n3 := n3) A (L := L) (E0 := E0) (R := R) (a := (7 + R) * A.e + w) (B := B) (M := M)
    (L1 := L1) (L2 := L2) (L3 := L3) (norm := norm) hL hE hη hε hν hM (kernel := (GenKernel.mann hyp L E0 Gamma).eval)
    (b := fun p => (mannBeta hyp L Gamma p).toReal) (b' := A.mannBeta hypF L Gamma)
    (fun k => by
      change mannKernel hyp L E0 Gamma _ = _
      unfold mannKernel
      rw [← hfin])
    (fun k => by
      by_cases hk : (freqOf L1 L2 L3 k).vec = 0
      · have z1 : (freqOf L1 L2 L3 k).k1 = 0 := congrFun hk 0
        have z2 : (freqOf L1 L2 L3 k).k2 = 0 := congrFun hk 1
        have z3 : (freqOf L1 L2 L3 k).k3 = 0 := congrFun hk 2
        have y1 : mannBeta hyp L Gamma (freqOf L1 L2 L3 k) = fin 0 := by
          rw [mannBeta_eq Gamma hL hh, if_pos (by unfold kkR; rw [z1, z2, z3]; ring)]
        have y2 : A.mannBeta hypF L Gamma (freqOf L1 L2 L3 k) = 0 := by
          have hn := ShearSetting.kk_near A (freqOf L1 L2 L3 k)
          have hk0 : kkR (freqOf L1 L2 L3 k) = 0 := by unfold kkR; rw [z1, z2, z3]; ring
          obtain ⟨s, _, hs⟩ := hn
          rw [hk0, zero_mul] at hs
          unfold ShearFmt.mannBeta
          rw [if_pos hs]
        beta_reduce
        rw [y1, y2, toReal_fin]
        exact (LogNear.refl 0).mono (by positivity)
      · obtain ⟨b, hb, hn⟩ := C143_lifetime A he hyp_ok hw (Gamma := Gamma) hL hk ((hgrid k).2.1 hk)
        beta_reduce
        rw [hb, toReal_fin]
        exact hn)
    (fun k => (hgrid k).1) (by rw [ea]; exact hs) h1 (fun k => (hgrid k).2.2) hS hy
  rw [ea] at h
  exact h

/-- Double precision, a lifetime of three at a wavevector off the axes, `L = 1`: the hypotheses of the bound hold, and the factor in
front of the Frobenius norm is below `2e-9`. -/
example (A : ShearFmt) (hv : A.v ≤ 1 / 2 ^ 52) :
    LogNear 0 (3:ℝ) 3 ∧ 416 * (1 + |(3:ℝ)|) ^ 2 * (0 + 2 * A.e) ≤ 1 ∧
    Real.log (1 + 1 ^ 2 * ((1:ℝ) ^ 2 + 1 ^ 2 + (1 + 3 * 1) ^ 2)) ≤ 4 ∧
    16 * (1 + |(3:ℝ)|) ^ 2 * (Real.exp (484 * (1 + |(3:ℝ)|) ^ 2 * (0 + 2 * A.e) + (9 + 5 * 4) * A.e) - 1) ≤ 2e-9 := by
  have h := A.e_le
  have h1 : A.v / (1 - A.v) ≤ 2.23e-16 := by
    rw [div_le_iff₀ (by linarith)]
    linarith
  have h2 : A.e ≤ 2.23e-16 := h.trans h1
  have e0 := A.e_nonneg
  have a3 : |(3:ℝ)| = 3 := abs_of_pos (by norm_num)
  rw [a3]
  refine ⟨LogNear.refl _, by linarith, ?_, ?_⟩
  · rw [Real.log_le_iff_le_exp (by norm_num)]
    have q := Real.quadratic_le_exp_of_nonneg (x := 2) (by norm_num)
    have : Real.exp 4 = Real.exp 2 * Real.exp 2 := by rw [← Real.exp_add]; norm_num
    rw [this]
    nlinarith
  · obtain ⟨x, hx⟩ : ∃ x, x = 484 * (1 + (3:ℝ)) ^ 2 * (0 + 2 * A.e) + (9 + 5 * 4) * A.e := ⟨_, rfl⟩
    have q := ScaleNear.exp_sub_one_le (a := x) (by rw [hx]; positivity) (by rw [hx]; linarith)
    rw [← hx]
    have : x ≤ 15517 * 2.23e-16 := by rw [hx]; linarith
    linarith

/-- The library function may be the exact one, rounded. -/
example (p : ℕ) (hp : 0 < p) {hyp : ℝ → ℝ} (hy : IsMannHyp hyp) :
    ∀ z < 0, LogNear (Fmt.binary p hp).e (hyp z) ((Fmt.binary p hp).rnd (hyp z)) := fun z _ => Fmt.rnd_near _ _

/-- Some field is computed, and the kernel on a grid is bounded. -/
example (A : ShearFmt) (L E0 L1 L2 L3 norm : ℝ) (b : K3 → ℝ) (noise : Box n1 n2 n3 → Fin 3 → ℝ) (kernel : K3 → Fin 3 → Fin 3 → Fl) :
    (∃ y, VfRounded (A.shearHalf L E0 b (freqOf L1 L2 L3)) norm noise 0 0 0 y) ∧
    ∃ M, 0 ≤ M ∧ ∀ k : Box n1 n2 n3, ∑ i, ∑ l, ‖spectrumOf kernel L1 L2 L3 k i l‖ ^ 2 ≤ M ^ 2 := by
  let h : Box n1 n2 n3 → Fin 3 → ℂ := fun k l => fftn (fun x => (noise x l : ℂ)) k
  let g : Box n1 n2 n3 → Fin 3 → ℂ := fun k i => ∑ l, A.shearHalf L E0 b (freqOf L1 L2 L3) k i l * h k l
  constructor
  · refine ⟨fun x i => irfftn (fun k => g k i) x / norm, h, g, fun x i => irfftn (fun k => g k i) x,
      ?_, fun k i => ?_, ?_, fun x i => ?_⟩ <;> simp [halfEnergy, h, g]
  · refine ⟨Real.sqrt (∑ k : Box n1 n2 n3, ∑ i, ∑ l, ‖spectrumOf kernel L1 L2 L3 k i l‖ ^ 2), Real.sqrt_nonneg _, fun k => ?_⟩
    have nn : ∀ k : Box n1 n2 n3, 0 ≤ ∑ i, ∑ l, ‖spectrumOf kernel L1 L2 L3 k i l‖ ^ 2 := fun k =>
      Finset.sum_nonneg fun i _ => Finset.sum_nonneg fun l _ => sq_nonneg _
    rw [Real.sq_sqrt (Finset.sum_nonneg fun k _ => nn k)]
    exact Finset.single_le_sum (f := fun k => ∑ i, ∑ l, ‖spectrumOf kernel L1 L2 L3 k i l‖ ^ 2) (fun k _ => nn k) (Finset.mem_univ k)

end field

end
end Verif
