import Verif.Model.Rounded
import Verif.Props.Convergence
import Verif.Props.Kernels

/-!
# C136, C137: results in rounded arithmetic

The spectra and the kernel as computed by a machine that rounds every operation, compared with the exact values.  `A.e` is the
logarithmic unit of error of the format (about `6e-8` in single and `1.1e-16` in double precision, more if the library functions
are less accurate).
-/

namespace Verif
open Fl Fmt Spec

noncomputable section

variable {A : Fmt}

theorem one_near (A : Fmt) {a : ℝ} (h : 0 ≤ a) : LogNear a 1 1 := (LogNear.refl 1).mono h

theorem log_one_add_sq {x R : ℝ} (hx : 0 < x) (hR : |Real.log x| ≤ R) : |Real.log (1 + x * x)| ≤ 2 * R + 1 := by
  have h0 : 0 ≤ Real.log (1 + x * x) := Real.log_nonneg (by nlinarith)
  rw [abs_of_nonneg h0]
  have hR' := abs_le.1 hR
  have hxe : x ≤ Real.exp R := (Real.log_le_iff_le_exp hx).1 hR'.2
  have hR0 : 0 ≤ R := (abs_nonneg _).trans hR
  have h1 : (1:ℝ) ≤ Real.exp R := Real.one_le_exp hR0
  rw [Real.log_le_iff_le_exp (by positivity), Real.exp_add, two_mul, Real.exp_add]
  have h2 : (2:ℝ) ≤ Real.exp 1 := by have := Real.add_one_le_exp (1:ℝ); linarith
  nlinarith [mul_le_mul hxe hxe hx.le (Real.exp_pos R).le, mul_le_mul h1 h1 zero_le_one (Real.exp_pos R).le]

theorem log_ratio {x R : ℝ} (hx : 0 < x) (hR : |Real.log x| ≤ R) : |Real.log (x / Real.sqrt (1 + x * x))| ≤ R + 1 := by
  have hp : 0 < 1 + x * x := by positivity
  have h1 : Real.log (x / Real.sqrt (1 + x * x)) = Real.log x - Real.log (1 + x * x) / 2 := by
    rw [Real.log_div hx.ne' (Real.sqrt_pos.2 hp).ne', Real.log_sqrt hp.le]
  have h2 := log_one_add_sq hx hR
  have h3 : 0 ≤ Real.log (1 + x * x) := Real.log_nonneg (by nlinarith)
  have h4 : 2 * Real.log x ≤ Real.log (1 + x * x) := by
    rw [show 2 * Real.log x = Real.log (x * x) by rw [Real.log_mul hx.ne' hx.ne']; ring]
    exact Real.log_le_log (by positivity) (by linarith)
  have h5 := (abs_le.1 h2).2
  have h6 := abs_le.1 hR
  rw [h1, abs_le]
  -- `log x - log (1 + x^2)/2` lies in `[min (log x) 0 - 1/2, 0]`
  have h7 : Real.log (1 + x * x) ≤ 2 * max (Real.log x) 0 + 1 := by
    rcases le_total 1 x with h | h
    · have := log_one_add_sq (R := Real.log x) hx (by rw [abs_of_nonneg (Real.log_nonneg h)])
      linarith [(abs_le.1 this).2, le_max_left (Real.log x) 0]
    · have : Real.log (1 + x * x) ≤ 1 := by
        rw [Real.log_le_iff_le_exp hp]
        have := Real.add_one_le_exp (1:ℝ)
        nlinarith
      linarith [le_max_right (Real.log x) 0]
  rcases max_cases (Real.log x) 0 with h | h <;> constructor <;> linarith [h6.1, h6.2, h.1, h.2]

theorem one_add_sq_near {a x x' : ℝ} (h : LogNear a x x') :
    LogNear (2 * a + 2 * A.e) (1 + x * x) (A.add 1 (A.sq x')) := by
  have h1 := A.sq_near h
  exact (A.add_near (one_near A h1.nonneg) h1 zero_le_one (mul_self_nonneg x)).mono (by linarith)

theorem vkEnergy_near {x R : ℝ} (hx : 0 < x) (hR : |Real.log x| ≤ R) (he : A.e ≤ 1) :
    LogNear ((18 + 6 * R) * A.e) (x ^ (4:ℝ) / (1 + x * x) ^ (17 / 6 : ℝ)) (A.vkEnergy x) := by
  have e0 := A.e_nonneg
  have h1 := A.powGiven_near (LogNear.refl x) hx 4
  have h2 := A.powLit_near (one_add_sq_near (A := A) (LogNear.refl x)) (by positivity) (log_one_add_sq hx hR) (17 / 6)
  refine (A.div_near h1 h2).mono ?_
  rw [abs_of_pos (by norm_num), abs_of_pos (by norm_num)]
  nlinarith [(abs_nonneg _).trans hR]

theorem vkLike_near {a x x' R : ℝ} (h : LogNear a x x') (hx : 0 < x) (hR : |Real.log x| ≤ R) (he : A.e ≤ 1 / 100) :
    LogNear (14 * (a + (R + 2) * A.e)) (x ^ (-5 / 3 : ℝ) * (x / Real.sqrt (1 + x * x)) ^ (17 / 3 : ℝ)) (A.vkLike x') := by
  have e0 := A.e_nonneg
  have a0 := h.nonneg
  have R0 := (abs_nonneg _).trans hR
  have h1 := A.powLit_near h hx hR (-5 / 3)
  have h2 := A.div_near h (A.sqrt_near (one_add_sq_near (A := A) h))
  have h3 := A.powLit_near h2 (by positivity) (log_ratio hx hR) (17 / 3)
  refine (A.mul_near h1 h3).mono ?_
  rw [abs_of_neg (by norm_num), abs_of_pos (by norm_num)]
  have p1 : A.e * a ≤ 1 / 100 * a := mul_le_mul_of_nonneg_right he a0
  have p2 : A.e * A.e ≤ 1 / 100 * A.e := mul_le_mul_of_nonneg_right he e0
  have p3 : 0 ≤ A.e * R := mul_nonneg e0 R0
  nlinarith

theorem learnable_near {a x x' : ℝ} (h : LogNear a x x') (hx : 0 < x) (p q : ℝ) :
    LogNear ((|p| + 2 * |q|) * a + (2 * |q| + 3) * A.e) (x ^ p / (1 + x * x) ^ q) (A.learnable x' p q) := by
  have h1 := A.powGiven_near h hx p
  have h2 := A.powGiven_near (one_add_sq_near (A := A) h) (by positivity) q
  exact (A.div_near h1 h2).mono (by nlinarith)

/-- Relative error `exp a - 1`. -/
theorem rel_of_near {a x y : ℝ} (h : LogNear a x y) (hx : 0 ≤ x) : |y - x| ≤ (Real.exp a - 1) * x := by
  have := h.sub_le
  rwa [abs_of_nonneg hx, mul_comm] at this

/-- **C136** The energy spectra in rounded arithmetic: for every positive argument the returned value differs from the exact one
by a relative error that grows only with the logarithm of the argument. -/
theorem C136_energy (A : Fmt) (he : A.e ≤ 1 / 100) {x R : ℝ} (hx : 0 < x) (hR : |Real.log x| ≤ R) (p q : ℝ) :
    ∃ y1 y2 y3 : ℝ, 0 < y1 ∧ 0 < y2 ∧ 0 < y3 ∧
      VKEnergySpectrum (fin x) = fin y1 ∧ VKLike_EnergySpectrum (fin x) = fin y2 ∧ Learnable_EnergySpectrum (fin x) p q = fin y3 ∧
      |A.vkEnergy x - y1| ≤ (Real.exp ((18 + 6 * R) * A.e) - 1) * y1 ∧
      |A.vkLike x - y2| ≤ (Real.exp ((28 + 14 * R) * A.e) - 1) * y2 ∧
      |A.learnable x p q - y3| ≤ (Real.exp ((3 + 2 * |q|) * A.e) - 1) * y3 := by
  have hp : 0 < 1 + x * x := by positivity
  have h1 : VKEnergySpectrum (fin x) = fin (x ^ (4:ℝ) / (1 + x * x) ^ (17 / 6 : ℝ)) := by
    unfold VKEnergySpectrum
    have e1 : (1 : Fl) + fin x * fin x = fin (1 + x * x) := rfl
    rw [e1, pow_fin _ hp]
    simp only [fin_mul_fin]
    rw [fin_div_fin _ (Real.rpow_pos_of_pos hp _).ne']
    congr 2
    rw [show (4:ℝ) = ((4:ℕ):ℝ) by norm_num, Real.rpow_natCast]; ring
  have h2 : VKLike_EnergySpectrum (fin x) = fin (x ^ (-5 / 3 : ℝ) * (x / Real.sqrt (1 + x * x)) ^ (17 / 3 : ℝ)) := by
    unfold VKLike_EnergySpectrum
    have e1 : (1 : Fl) + fin x * fin x = fin (1 + x * x) := rfl
    rw [e1, sqrt_fin hp.le, fin_div_fin _ (Real.sqrt_pos.2 hp).ne', pow_fin _ hx, pow_fin _ (by positivity), fin_mul_fin]
  have h3 := learnable_pos hx p q
  refine ⟨_, _, _, ?_, ?_, ?_, h1, h2, h3, ?_, ?_, ?_⟩
  · positivity
  · positivity
  · positivity
  · exact rel_of_near (vkEnergy_near hx hR (by linarith)) (by positivity)
  · refine rel_of_near ((vkLike_near (A := A) (LogNear.refl x) hx hR he).mono (le_of_eq (by ring))) (by positivity)
  · exact rel_of_near ((learnable_near (A := A) (LogNear.refl x) hx p q).mono (le_of_eq (by ring))) (by positivity)

/-- Single precision, library functions within four units in the last place, arguments between `1e-6` and `1e6`. -/
example (A : Fmt) (hv : A.v ≤ 1 / 2 ^ 22) : A.e ≤ 1 / 100 ∧ (18 + 6 * 14) * A.e ≤ 2.5e-5 ∧ (28 + 14 * 14) * A.e ≤ 5.5e-5 := by
  have h := A.e_le
  have h1 : A.v / (1 - A.v) ≤ 2.4e-7 := by
    rw [div_le_iff₀ (by linarith)]
    linarith
  have h2 : A.e ≤ 2.4e-7 := h.trans h1
  refine ⟨?_, ?_, ?_⟩ <;> linarith

/-! ### The von Karman kernel -/

theorem sumsq_near (A : Fmt) (a b c : ℝ) :
    LogNear (3 * A.e) (a * a + b * b + c * c) (A.add (A.add (A.sq a) (A.sq b)) (A.sq c)) := by
  have e0 := A.e_nonneg
  have h := fun x => (A.sq_near (LogNear.refl x)).mono (show 2 * 0 + A.e ≤ A.e by linarith)
  have h1 := A.add_near (h a) (h b) (mul_self_nonneg a) (mul_self_nonneg b)
  exact (A.add_near h1 ((h c).mono (by linarith)) (add_nonneg (mul_self_nonneg a) (mul_self_nonneg b)) (mul_self_nonneg c)).mono (by linarith)

/-- The exact value of the scalar factor. -/
def vkC (L E0 : ℝ) (k : K3) : ℝ :=
  Real.sqrt (E0 * L ^ (17 / 3 : ℝ) / (4 * Real.pi) / (1 + L ^ 2 * (k.k1 * k.k1 + k.k2 * k.k2 + k.k3 * k.k3)) ^ (17 / 6 : ℝ))

theorem vkConst_near {L E0 R : ℝ} (hL : 0 < L) (k : K3) (he : A.e ≤ 1) (h1 : |Real.log L| ≤ R)
    (h2 : Real.log (1 + L ^ 2 * (k.k1 * k.k1 + k.k2 * k.k2 + k.k3 * k.k3)) ≤ R) :
    LogNear ((21 + 5 * R) * A.e) (vkC L E0 k) (A.vkConst L E0 k) := by
  have e0 := A.e_nonneg
  have R0 := (abs_nonneg _).trans h1
  have kk0 : 0 ≤ k.k1 * k.k1 + k.k2 * k.k2 + k.k3 * k.k3 :=
    add_nonneg (add_nonneg (mul_self_nonneg _) (mul_self_nonneg _)) (mul_self_nonneg _)
  have a1 := A.powLit_near (LogNear.refl L) hL h1 (17 / 3)
  have a2 := A.div_near (A.mul_near (LogNear.refl E0) a1) (A.rnd_near (4 * Real.pi))
  have b1 := A.mul_near (A.sq_near (LogNear.refl L)) (sumsq_near A k.k1 k.k2 k.k3)
  have b2 := A.add_near (one_near A b1.nonneg) b1 zero_le_one (by positivity)
  rw [← pow_two] at b2
  have hp : 0 < 1 + L ^ 2 * (k.k1 * k.k1 + k.k2 * k.k2 + k.k3 * k.k3) := by positivity
  have b3 := A.powLit_near b2 hp (R := R)
    (by rw [abs_of_nonneg (Real.log_nonneg (by nlinarith [mul_nonneg (sq_nonneg L) kk0]))]; exact h2) (17 / 6)
  refine (A.sqrt_near (A.div_near a2 b3)).mono ?_
  rw [abs_of_pos (by norm_num), abs_of_pos (by norm_num)]
  nlinarith

/-- **C136** The von Karman kernel in rounded arithmetic: every entry keeps a small relative error; the matrix is exactly
antisymmetric with zero diagonal and exactly odd in the wavevector; and each column is orthogonal to the wavevector up to one
rounding.  (Rounding in the Fourier transform is outside the model.) -/
theorem C136_kernel (A : Fmt) (he : A.e ≤ 1) {L E0 R : ℝ} (hL : 0 < L) (hE : 0 ≤ E0) (k : K3) (h1 : |Real.log L| ≤ R)
    (h2 : Real.log (1 + L ^ 2 * (k.k1 * k.k1 + k.k2 * k.k2 + k.k3 * k.k3)) ≤ R) :
    (∀ i j, ∃ x, vkKernel L E0 k i j = fin x ∧ |A.vkMat L E0 k i j - x| ≤ (Real.exp ((22 + 5 * R) * A.e) - 1) * |x|) ∧
    (∀ i j, A.vkMat L E0 k j i = -A.vkMat L E0 k i j) ∧
    (∀ i j, A.vkMat L E0 k.neg i j = -A.vkMat L E0 k i j) ∧
    ∀ j, |∑ i, k.vec i * A.vkMat L E0 k i j| ≤ A.u * (A.vkConst L E0 k * ∑ i, k.vec i ^ 2) := by
  have hc := vkConst_near (A := A) (E0 := E0) hL k he h1 h2
  have c0 : 0 ≤ vkC L E0 k := Real.sqrt_nonneg _
  have c1 := hc.nonneg_right c0
  have hcon : kernelConst L E0 (fin (k.k1 ^ 2 + k.k2 ^ 2 + k.k3 ^ 2)) = fin (vkC L E0 k) := by
    rw [kernelConst_fin hL hE (by positivity)]
    unfold vkC constR
    simp only [pow_two]
  have rn : ∀ x y : ℝ, LogNear ((22 + 5 * R) * A.e) (vkC L E0 k * y) (A.mul (A.vkConst L E0 k) y) := fun x y =>
    (A.mul_near hc (LogNear.refl y)).mono (le_of_eq (by ring))
  have rn' : ∀ y : ℝ, LogNear ((22 + 5 * R) * A.e) (-vkC L E0 k * y) (A.mul (-A.vkConst L E0 k) y) := fun y =>
    (A.mul_near hc.neg (LogNear.refl y)).mono (le_of_eq (by ring))
  have mneg : ∀ x y : ℝ, A.mul (-x) y = -A.mul x y := fun x y => by unfold Fmt.mul; rw [neg_mul, A.odd]
  have mneg' : ∀ x y : ℝ, A.mul x (-y) = -A.mul x y := fun x y => by unfold Fmt.mul; rw [mul_neg, A.odd]
  have cneg : A.vkConst L E0 k.neg = A.vkConst L E0 k := by
    unfold Fmt.vkConst Fmt.sq K3.neg; simp
  refine ⟨?_, ?_, ?_, ?_⟩
  · have rel : ∀ {x y : ℝ}, LogNear ((22 + 5 * R) * A.e) x y → |y - x| ≤ (Real.exp ((22 + 5 * R) * A.e) - 1) * |x| := fun h => by
      have := h.sub_le
      rwa [mul_comm] at this
    intro i j
    unfold vkKernel
    simp only [hcon]
    fin_cases i <;> fin_cases j
    · exact ⟨0, rfl, by simp [Fmt.vkMat]⟩
    · exact ⟨-vkC L E0 k * k.k3, rfl, rel (rn' _)⟩
    · exact ⟨vkC L E0 k * k.k2, rfl, rel (rn 0 _)⟩
    · exact ⟨vkC L E0 k * k.k3, rfl, rel (rn 0 _)⟩
    · exact ⟨0, rfl, by simp [Fmt.vkMat]⟩
    · exact ⟨-vkC L E0 k * k.k1, rfl, rel (rn' _)⟩
    · exact ⟨-vkC L E0 k * k.k2, rfl, rel (rn' _)⟩
    · exact ⟨vkC L E0 k * k.k1, rfl, rel (rn 0 _)⟩
    · exact ⟨0, rfl, by simp [Fmt.vkMat]⟩
  · intro i j
    fin_cases i <;> fin_cases j <;> simp [Fmt.vkMat, mneg]
  · intro i j
    have n1 : k.neg.k1 = -k.k1 := rfl
    have n2 : k.neg.k2 = -k.k2 := rfl
    have n3 : k.neg.k3 = -k.k3 := rfl
    fin_cases i <;> fin_cases j <;> simp [Fmt.vkMat, mneg, mneg', cneg, n1, n2, n3]
  · have key : ∀ a b c : ℝ, |a * A.mul (A.vkConst L E0 k) b - b * A.mul (A.vkConst L E0 k) a| ≤
        A.u * (A.vkConst L E0 k * (a ^ 2 + b ^ 2 + c ^ 2)) := by
      intro a b c
      have r1 := A.err (A.vkConst L E0 k * b)
      have r2 := A.err (A.vkConst L E0 k * a)
      have e1 : a * A.mul (A.vkConst L E0 k) b - b * A.mul (A.vkConst L E0 k) a =
          a * (A.rnd (A.vkConst L E0 k * b) - A.vkConst L E0 k * b) - b * (A.rnd (A.vkConst L E0 k * a) - A.vkConst L E0 k * a) := by
        unfold Fmt.mul; ring
      rw [e1]
      refine (abs_sub _ _).trans ?_
      rw [abs_mul, abs_mul]
      rw [abs_mul, abs_of_nonneg c1] at r1 r2
      have m1 := mul_le_mul_of_nonneg_left r1 (abs_nonneg a)
      have m2 := mul_le_mul_of_nonneg_left r2 (abs_nonneg b)
      have hab : 2 * (|a| * |b|) ≤ a ^ 2 + b ^ 2 + c ^ 2 := by
        nlinarith [sq_nonneg (|a| - |b|), sq_abs a, sq_abs b, sq_nonneg c]
      have := mul_le_mul_of_nonneg_left hab (mul_nonneg A.u0 c1)
      nlinarith
    intro j
    simp only [Fin.sum_univ_three, K3.vec]
    fin_cases j
    · have := key k.k2 k.k3 k.k1
      simp only [Fmt.vkMat, mneg]
      refine le_trans (le_of_eq ?_) (this.trans (le_of_eq ?_))
      · congr 1; simp; ring
      · simp only [Matrix.cons_val_zero, Matrix.cons_val_one, Matrix.cons_val]; ring
    · have := key k.k3 k.k1 k.k2
      simp only [Fmt.vkMat, mneg]
      refine le_trans (le_of_eq ?_) (this.trans (le_of_eq ?_))
      · congr 1; simp; ring
      · simp only [Matrix.cons_val_zero, Matrix.cons_val_one, Matrix.cons_val]; ring
    · have := key k.k1 k.k2 k.k3
      simp only [Fmt.vkMat, mneg]
      refine le_trans (le_of_eq ?_) (this.trans (le_of_eq ?_))
      · congr 1; simp; ring
      · simp only [Matrix.cons_val_zero, Matrix.cons_val_one, Matrix.cons_val]

/-- The kernel with `L = 1`, `E0 = 1` at `(1, 2, 0)`: `R = 2` bounds the logarithms. -/
example (A : Fmt) (he : A.e ≤ 1) : ∃ x, vkKernel 1 1 ⟨1, 2, 0⟩ 0 2 = fin x ∧
    |A.vkMat 1 1 ⟨1, 2, 0⟩ 0 2 - x| ≤ (Real.exp ((22 + 5 * 2) * A.e) - 1) * |x| := by
  refine (C136_kernel A he (R := 2) one_pos zero_le_one ⟨1, 2, 0⟩ (by simp) ?_).1 0 2
  rw [Real.log_le_iff_le_exp (by norm_num)]
  have h1 := Real.exp_one_gt_d9
  have h2 : Real.exp 2 = Real.exp 1 * Real.exp 1 := by rw [← Real.exp_add]; norm_num
  rw [h2]
  norm_num
  nlinarith

end
end Verif
