import Verif.Num.Round
import Mathlib.Analysis.Convex.SpecificFunctions.Basic

/-!
# Errors relative to a scale

Sums of terms of different sign have no small relative error.  `ScaleNear a S x y` bounds the error by `exp a - 1` times a scale `S`
that is at least `|x|`.
-/

namespace Verif

noncomputable section

/-- `y` differs from `x` by at most `exp a - 1` times the scale `S ≥ |x|`. -/
def ScaleNear (a S x y : ℝ) : Prop := 0 ≤ a ∧ |x| ≤ S ∧ |y - x| ≤ (Real.exp a - 1) * S

namespace ScaleNear
variable {a b S T x x' y y' : ℝ}

theorem exp_sub_one_nonneg (h : 0 ≤ a) : 0 ≤ Real.exp a - 1 := by linarith [Real.one_le_exp h]

theorem scale_nonneg (h : ScaleNear a S x y) : 0 ≤ S := (abs_nonneg _).trans h.2.1

theorem of_log (h : LogNear a x y) : ScaleNear a |x| x y := ⟨h.nonneg, le_rfl, by rw [mul_comm]; exact h.sub_le⟩

theorem mono (h : ScaleNear a S x y) (hab : a ≤ b) (hST : S ≤ T) : ScaleNear b T x y := by
  refine ⟨h.1.trans hab, h.2.1.trans hST, h.2.2.trans ?_⟩
  exact mul_le_mul (by linarith [Real.exp_le_exp.2 hab]) hST h.scale_nonneg (exp_sub_one_nonneg (h.1.trans hab))

theorem abs_right (h : ScaleNear a S x y) : |y| ≤ Real.exp a * S := by
  have h1 := h.2.1
  have h2 := h.2.2
  have h3 : |y| ≤ |y - x| + |x| := by have := abs_add_le (y - x) x; rwa [sub_add_cancel] at this
  linarith

theorem mul (h : ScaleNear a S x x') (h' : ScaleNear b T y y') : ScaleNear (a + b) (S * T) (x * y) (x' * y') := by
  refine ⟨add_nonneg h.1 h'.1, ?_, ?_⟩
  · rw [abs_mul]; exact mul_le_mul h.2.1 h'.2.1 (abs_nonneg _) h.scale_nonneg
  · have e : x' * y' - x * y = (x' - x) * y' + x * (y' - y) := by ring
    rw [e]
    refine (abs_add_le _ _).trans ?_
    rw [abs_mul, abs_mul]
    have m1 : |x' - x| * |y'| ≤ (Real.exp a - 1) * S * (Real.exp b * T) :=
      mul_le_mul h.2.2 h'.abs_right (abs_nonneg _) (mul_nonneg (exp_sub_one_nonneg h.1) h.scale_nonneg)
    have m2 : |x| * |y' - y| ≤ S * ((Real.exp b - 1) * T) := mul_le_mul h.2.1 h'.2.2 (abs_nonneg _) h.scale_nonneg
    rw [Real.exp_add]
    linarith

theorem add (h : ScaleNear a S x x') (h' : ScaleNear a T y y') : ScaleNear a (S + T) (x + y) (x' + y') := by
  refine ⟨h.1, (abs_add_le _ _).trans (add_le_add h.2.1 h'.2.1), ?_⟩
  rw [show x' + y' - (x + y) = (x' - x) + (y' - y) by ring, mul_add]
  exact (abs_add_le _ _).trans (add_le_add h.2.2 h'.2.2)

theorem neg (h : ScaleNear a S x y) : ScaleNear a S (-x) (-y) :=
  ⟨h.1, by rw [abs_neg]; exact h.2.1, by rw [show -y - -x = -(y - x) by ring, abs_neg]; exact h.2.2⟩

theorem sub (h : ScaleNear a S x x') (h' : ScaleNear a T y y') : ScaleNear a (S + T) (x - y) (x' - y') := by
  rw [sub_eq_add_neg, sub_eq_add_neg]
  exact h.add h'.neg

theorem rnd (A : Fmt) (h : ScaleNear a S x y) : ScaleNear (a + A.e) S x (A.rnd y) := by
  refine ⟨add_nonneg h.1 A.e_nonneg, h.2.1, ?_⟩
  have h1 := A.err y
  have h2 := h.abs_right
  have h3 : |A.rnd y - x| ≤ |A.rnd y - y| + |y - x| := abs_sub_le _ _ _
  have h4 : A.u * |y| ≤ A.e * (Real.exp a * S) := mul_le_mul A.u_le_e h2 (abs_nonneg _) A.e_nonneg
  have h5 := Real.add_one_le_exp A.e
  have h6 : (A.e + 1) * (Real.exp a * S) ≤ Real.exp A.e * (Real.exp a * S) :=
    mul_le_mul_of_nonneg_right h5 (mul_nonneg (Real.exp_pos _).le h.scale_nonneg)
  rw [Real.exp_add]
  have h7 := h.2.2
  linarith

theorem exp_scale {c : ℝ} (hc : 1 ≤ c) (ha : 0 ≤ a) : c * (Real.exp a - 1) ≤ Real.exp (c * a) - 1 := by
  have h := one_add_mul_self_le_rpow_one_add (s := Real.exp a - 1) (by linarith [Real.exp_pos a]) hc
  rw [show 1 + (Real.exp a - 1) = Real.exp a by ring, ← Real.exp_mul, mul_comm a c] at h
  linarith

/-- A smaller scale at the price of a larger exponent. -/
theorem rescale {c : ℝ} (h : ScaleNear a (c * S) x y) (hc : 1 ≤ c) (hx : |x| ≤ S) : ScaleNear (c * a) S x y := by
  refine ⟨mul_nonneg (by linarith) h.1, hx, h.2.2.trans ?_⟩
  rw [← mul_assoc, mul_comm _ c]
  exact mul_le_mul_of_nonneg_right (exp_scale hc h.1) ((abs_nonneg _).trans hx)

theorem exp_le_inv {a : ℝ} (h : a < 1) : Real.exp a ≤ 1 / (1 - a) := by
  rw [le_div_iff₀ (by linarith)]
  have h1 := Real.add_one_le_exp (-a)
  have h2 : Real.exp a * Real.exp (-a) = 1 := by rw [← Real.exp_add]; simp
  nlinarith [Real.exp_pos a]

/-- `exp a - 1` for small `a`. -/
theorem exp_sub_one_le {a : ℝ} (h0 : 0 ≤ a) (h : a ≤ 1 / 2) : Real.exp a - 1 ≤ 2 * a := by
  have h1 := exp_le_inv (a := a) (by linarith)
  have h2 : 1 / (1 - a) ≤ 1 + 2 * a := by
    rw [div_le_iff₀ (by linarith)]
    nlinarith
  linarith

/-- Back to a relative error when the scale is the number itself. -/
theorem to_log (h : ScaleNear a x x y) (ha : a ≤ 1 / 3) : LogNear (2 * a) x y := by
  have hx := h.scale_nonneg
  have h0 := h.1
  have hd := abs_le.1 h.2.2
  have t1 : Real.exp a ≤ 3 / 2 := by
    refine (exp_le_inv (a := a) (by linarith)).trans ?_
    rw [div_le_iff₀ (by linarith)]
    linarith
  have t0 := Real.one_le_exp h0
  have e2 : Real.exp (2 * a) = Real.exp a * Real.exp a := by rw [two_mul, Real.exp_add]
  have e3 : Real.exp (-(2 * a)) ≤ 2 - Real.exp a := by
    rw [Real.exp_neg, e2, inv_le_iff_one_le_mul₀ (by positivity)]
    nlinarith [mul_nonneg (sub_nonneg.2 t0) (sub_nonneg.2 t1), mul_nonneg (mul_nonneg (sub_nonneg.2 t0) (sub_nonneg.2 t1)) (by linarith : 0 ≤ Real.exp a)]
  refine LogNear.of_bounds hx (by linarith) ?_ ?_
  · have := mul_le_mul_of_nonneg_left e3 hx
    linarith
  · have : Real.exp a ≤ Real.exp (2 * a) := Real.exp_le_exp.2 (by linarith)
    have := mul_le_mul_of_nonneg_left this hx
    linarith

/-- Three terms of different sign: `1 + 1 - 2` cancels, the error is relative to `4`. -/
example : ScaleNear (0 + 0 + 0) (1 + 1 + 2) (1 + 1 - 2 : ℝ) (1 + 1 - 2) := by
  refine ⟨by norm_num, by norm_num, by norm_num⟩

end ScaleNear
end
end Verif
