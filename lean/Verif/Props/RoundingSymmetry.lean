import Verif.Model.RoundedKernel

/-!
# C140: the symmetries of the kernels hold exactly in floating point arithmetic
-/

namespace Verif
open Fl

noncomputable section

namespace Fl

protected theorem neg_neg (x : Fl) : - -x = x := by cases x <;> simp

theorem infMul_neg' (x : ℝ) : infMul (-x) = -infMul x := by
  rcases lt_trichotomy x 0 with h | rfl | h
  · rw [infMul_neg h, infMul_pos (by linarith)]; rfl
  · simp
  · rw [infMul_pos h, infMul_neg (by linarith)]; rfl

protected theorem neg_mul (x y : Fl) : -x * y = -(x * y) := by
  cases x <;> cases y <;> simp [pinf_mul_fin, fin_mul_pinf, ninf_mul_fin, fin_mul_ninf, infMul_neg', Fl.neg_neg]

protected theorem mul_neg (x y : Fl) : x * -y = -(x * y) := by
  rw [Fl.mul_comm, Fl.neg_mul, Fl.mul_comm]

protected theorem neg_add (x y : Fl) : -x + -y = -(x + y) := by
  cases x <;> cases y <;> simp [add_comm]

protected theorem neg_div (x y : Fl) : -x / y = -(x / y) := by
  cases x with
  | nan => simp
  | pinf =>
    cases y with
    | fin y => change (if 0 ≤ y then ninf else pinf) = -(if 0 ≤ y then pinf else ninf); split_ifs <;> rfl
    | _ => rfl
  | ninf =>
    cases y with
    | fin y => change (if 0 ≤ y then pinf else ninf) = -(if 0 ≤ y then ninf else pinf); split_ifs <;> rfl
    | _ => rfl
  | fin x =>
    cases y with
    | fin y =>
      rcases eq_or_ne y 0 with rfl | h
      · rw [neg_fin, fin_div_zero, fin_div_zero, infMul_neg']
      · rw [neg_fin, fin_div_fin _ h, fin_div_fin _ h, neg_fin, neg_div]
    | nan => rfl
    | pinf => change fin 0 = -fin 0; simp
    | ninf => change fin 0 = -fin 0; simp

protected theorem abs_neg (x : Fl) : Fl.abs (-x) = Fl.abs x := by
  cases x <;> simp [Fl.abs]

theorem nanToNum_neg (x : Fl) : nanToNum (-x) = -nanToNum x := by
  cases x <;> simp [nanToNum]

end Fl

namespace Ieee
variable (I : Ieee)

theorem R_neg (x : Fl) : I.R (-x) = -I.R x := by
  cases x <;> simp [R, I.odd]

theorem add_nn (x y : Fl) : I.add (-x) (-y) = -I.add x y := by simp [add, Fl.neg_add, R_neg]
theorem sub_nn (x y : Fl) : I.sub (-x) (-y) = -I.sub x y := by simp [sub, Fl.sub_def, Fl.neg_add, R_neg]
theorem mul_n (x y : Fl) : I.mul (-x) y = -I.mul x y := by simp [mul, Fl.neg_mul, R_neg]
theorem mul_n' (x y : Fl) : I.mul x (-y) = -I.mul x y := by simp [mul, Fl.mul_neg, R_neg]
theorem div_n (x y : Fl) : I.div (-x) y = -I.div x y := by simp [div, Fl.neg_div, R_neg]
theorem sq_n (x : Fl) : I.sq (-x) = I.sq x := by simp [sq, mul_n, mul_n', Fl.neg_neg]
theorem div_nn (x : Fl) {y : ℝ} (hy : y ≠ 0) : I.div (-x) (-fin y) = I.div x (fin y) := by
  have h : -x / -fin y = x / fin y := by
    rw [Fl.neg_div]
    cases x with
    | fin x => rw [neg_fin, fin_div_fin _ hy, fin_div_fin _ (neg_ne_zero.2 hy), neg_fin, div_neg, neg_neg]
    | nan => rfl
    | pinf =>
      change -(if 0 ≤ -y then pinf else ninf) = if 0 ≤ y then pinf else ninf
      rcases lt_or_gt_of_ne hy with h | h
      · rw [if_pos (by linarith), if_neg (by linarith)]; rfl
      · rw [if_neg (by linarith), if_pos (by linarith)]; rfl
    | ninf =>
      change -(if 0 ≤ -y then ninf else pinf) = if 0 ≤ y then ninf else pinf
      rcases lt_or_gt_of_ne hy with h | h
      · rw [if_pos (by linarith), if_neg (by linarith)]; rfl
      · rw [if_neg (by linarith), if_pos (by linarith)]; rfl
  simp only [div, h]

theorem sumsq_n (a b c : Fl) : I.sumsq (-a) (-b) (-c) = I.sumsq a b c := by simp [sumsq, sq_n]

theorem R_zero : I.R (fin 0) = fin 0 := I.zero

/-- A product with zero is zero or NaN. -/
theorem zero_mul_or (x : Fl) : I.mul (fin 0) x = fin 0 ∨ I.mul (fin 0) x = nan := by
  cases x with
  | fin x => left; simp [mul, R_zero]
  | nan => right; simp [mul, R]
  | pinf => right; simp [mul, R, fin_mul_pinf]
  | ninf => right; simp [mul, R, fin_mul_ninf]

theorem mul_zero_or (x : Fl) : I.mul x (fin 0) = fin 0 ∨ I.mul x (fin 0) = nan := by
  have := I.zero_mul_or x
  unfold mul at this ⊢
  rwa [Fl.mul_comm]

/-- On the plane `k1 = 0` the second coefficient is NaN. -/
theorem zeta2_plane {k : K3} (h : k.k1 = 0) (beta : Fl) : I.zeta2 k beta = nan := by
  have hq : I.div (fin k.k2) (fin 0) = nan ∨ I.div (fin k.k2) (fin 0) = pinf ∨ I.div (fin k.k2) (fin 0) = ninf := by
    unfold div
    rw [fin_div_zero]
    rcases lt_trichotomy k.k2 0 with h | h | h
    · rw [infMul_neg h]; simp [R]
    · rw [h]; simp [R]
    · rw [infMul_pos h]; simp [R]
  have hc : I.c1 k beta = fin 0 ∨ I.c1 k beta = nan := by
    have hsq : I.sq (fin 0) = fin 0 := by simp [sq, mul, R_zero]
    unfold c1
    simp only [h, hsq]
    have hz : ∀ x y : Fl, (x = fin 0 ∨ x = nan) → (I.mul x y = fin 0 ∨ I.mul x y = nan) := by
      rintro x y (rfl | rfl)
      · exact I.zero_mul_or y
      · right; simp [mul, R]
    have hd : ∀ x y : Fl, (x = fin 0 ∨ x = nan) → (I.div x y = fin 0 ∨ I.div x y = nan) := by
      rintro x y (rfl | rfl)
      · unfold div
        cases y with
        | fin y =>
          rcases eq_or_ne y 0 with rfl | hy
          · right; rw [fin_div_zero, infMul_zero]; rfl
          · left; rw [fin_div_fin _ hy, zero_div]; exact I.R_zero
        | nan => right; rfl
        | pinf => left; exact I.R_zero
        | ninf => left; exact I.R_zero
      · right; simp [div, R]
    exact hd _ _ (hz _ _ (I.mul_zero_or beta))
  have hm : I.mul (I.div (fin k.k2) (fin 0)) (I.c1 k beta) = nan := by
    rcases hc with hc | hc <;> rw [hc]
    · rcases hq with hq | hq | hq <;> rw [hq] <;> simp [mul, R, pinf_mul_fin, ninf_mul_fin]
    · simp [mul, R]
  unfold zeta2
  rw [h, hm]
  simp [add, R]

end Ieee

/-- The wavevector with the second component reversed. -/
def K3.mirror2 (k : K3) : K3 := ⟨k.k1, -k.k2, k.k3⟩

namespace Ieee
variable (I : Ieee)

theorem k30_n (k : K3) (b : Fl) : I.k30 k.neg b = -I.k30 k b := by
  simp only [k30, K3.neg, ← neg_fin, mul_n', add_nn]

theorem num_n (k : K3) (b : Fl) : I.num k.neg b = -I.num k b := by
  simp only [num, K3.neg, ← neg_fin, mul_n', mul_n, sq_n]

theorem den_n (k : K3) (b : Fl) : I.den k.neg b = I.den k b := by
  unfold den
  rw [k30_n]
  simp only [K3.neg, ← neg_fin, sumsq_n, mul_n', mul_n, Fl.neg_neg]

theorem c1_n (k : K3) (b : Fl) : I.c1 k.neg b = I.c1 k b := by
  unfold c1
  rw [k30_n]
  simp only [K3.neg, ← neg_fin, sumsq_n, sq_n, mul_n', mul_n, Fl.neg_neg]

theorem k30_m (k : K3) (b : Fl) : I.k30 k.mirror2 b = I.k30 k b := rfl
theorem sumsq_m (a b c : Fl) : I.sumsq a (-b) c = I.sumsq a b c := by simp [sumsq, sq_n]

theorem num_m (k : K3) (b : Fl) : I.num k.mirror2 b = I.num k b := by
  simp only [num, K3.mirror2, ← neg_fin, sq_n]

theorem den_m (k : K3) (b : Fl) : I.den k.mirror2 b = I.den k b := by
  simp only [den, k30_m]
  simp only [K3.mirror2, ← neg_fin, sumsq_m]

theorem c1_m (k : K3) (b : Fl) : I.c1 k.mirror2 b = I.c1 k b := by
  simp only [c1, k30_m]
  simp only [K3.mirror2, ← neg_fin, sumsq_m, sq_n]

theorem c2_m (k : K3) (b : Fl) : I.c2 k.mirror2 b = -I.c2 k b := by
  simp only [c2, k30_m, num_m, den_m]
  simp only [K3.mirror2, ← neg_fin, sumsq_m, sq_n, mul_n, div_n]

theorem zeta1_m (k : K3) (b : Fl) : I.zeta1 k.mirror2 b = I.zeta1 k b := by
  simp only [zeta1, c1_m, c2_m]
  simp only [K3.mirror2, ← neg_fin, div_n, mul_n, mul_n', Fl.neg_neg]

theorem zeta2_m (k : K3) (b : Fl) : I.zeta2 k.mirror2 b = -I.zeta2 k b := by
  simp only [zeta2, c1_m, c2_m]
  simp only [K3.mirror2, ← neg_fin, div_n, mul_n, add_nn]

theorem zeta3_m (k : K3) (b : Fl) : I.zeta3 k.mirror2 b = I.zeta3 k b := by
  simp only [zeta3, k30_m]
  simp only [K3.mirror2, ← neg_fin, sumsq_m]

theorem zeta3_n (k : K3) (b : Fl) : I.zeta3 k.neg b = I.zeta3 k b := by
  unfold zeta3
  rw [k30_n]
  simp only [K3.neg, ← neg_fin, sumsq_n]

/-- `C2` does not change sign with the wavevector off the plane `k1 = 0`; on it, it does. -/
theorem c2_n {k : K3} (h : k.k1 ≠ 0) (b : Fl) (hU : I.num k b = fin 0 → ¬ Fl.lt (I.den k b) (fin 0)) :
    I.c2 k.neg b = I.c2 k b := by
  unfold c2
  rw [k30_n, num_n, den_n]
  simp only [K3.neg, ← neg_fin, sumsq_n, sq_n, mul_n, div_n]
  have ha : I.atan2 (-I.num k b) (I.den k b) = -I.atan2 (I.num k b) (I.den k b) := by
    by_cases h0 : I.num k b = fin 0
    · rw [h0]
      rcases I.atan2_zero _ (hU h0) with h1 | h1
      · simp only [neg_fin, neg_zero, h1]
      · simp only [neg_fin, neg_zero, h1, neg_nan]
    · exact I.atan2_odd _ _ h0
  rw [ha, mul_n', Fl.neg_neg]

theorem c2_plane {k : K3} (h : k.k1 = 0) (b : Fl) : I.c2 k.neg b = -I.c2 k b := by
  have hn : I.num k.neg b = I.num k b := by
    simp only [num, K3.neg, h, neg_zero, ← neg_fin, sq_n]
  unfold c2
  rw [k30_n, hn, den_n]
  simp only [K3.neg, ← neg_fin, sumsq_n, sq_n, mul_n, div_n]

theorem zeta1_n (k : K3) (b : Fl) (hU : k.k1 ≠ 0 → I.num k b = fin 0 → ¬ Fl.lt (I.den k b) (fin 0)) :
    I.zeta1 k.neg b = I.zeta1 k b := by
  unfold zeta1
  by_cases h : k.k1 = 0
  · rw [c1_n, I.c2_plane h]
    simp only [K3.neg, h, neg_zero, ← neg_fin, div_n, mul_n, mul_n', Fl.neg_neg]
  · rw [c1_n, I.c2_n h b (hU h)]
    simp only [K3.neg, ← neg_fin, I.div_nn _ h]

theorem zeta2_n (k : K3) (b : Fl) (hU : k.k1 ≠ 0 → I.num k b = fin 0 → ¬ Fl.lt (I.den k b) (fin 0)) :
    I.zeta2 k.neg b = I.zeta2 k b := by
  by_cases h : k.k1 = 0
  · rw [I.zeta2_plane h, I.zeta2_plane (by simp [K3.neg, h])]
  · unfold zeta2
    rw [c1_n, I.c2_n h b (hU h)]
    simp only [K3.neg, ← neg_fin, I.div_nn _ h]

theorem cross_n (c x y z : Fl) (i j : Fin 3) : I.cross c (-x) (-y) (-z) i j = -I.cross c x y z i j := by
  fin_cases i <;> fin_cases j <;> simp [cross, mul_n']

theorem whereZero_n (k : K3) (b : Fl) : I.whereZero k.neg b = I.whereZero k b := by
  have h : I.sumsq (fin k.neg.k1) (fin k.neg.k2) (fin k.neg.k3) = I.sumsq (fin k.k1) (fin k.k2) (fin k.k3) := by
    simp only [K3.neg, ← neg_fin, sumsq_n]
  unfold whereZero
  rw [h]

theorem whereZero_m (k : K3) (b : Fl) : I.whereZero k.mirror2 b = I.whereZero k b := by
  have h : I.sumsq (fin k.mirror2.k1) (fin k.mirror2.k2) (fin k.mirror2.k3) = I.sumsq (fin k.k1) (fin k.k2) (fin k.k3) := by
    simp only [K3.mirror2, ← neg_fin, sumsq_m]
  unfold whereZero
  rw [h]

theorem mannBeta_n (L G : Fl) (k : K3) : I.mannBeta L G k.neg = I.mannBeta L G k := by
  simp only [mannBeta, whereZero_n]
  simp only [K3.neg, ← neg_fin, sumsq_n]

theorem mannBeta_m (L G : Fl) (k : K3) : I.mannBeta L G k.mirror2 = I.mannBeta L G k := by
  simp only [mannBeta, whereZero_m]
  simp only [K3.mirror2, ← neg_fin, sumsq_m]

theorem nnBeta_n (net : Fl → Fl → Fl → Fl) (G h : Fl) (k : K3) : I.nnBeta net G h k.neg = I.nnBeta net G h k := by
  simp only [nnBeta, whereZero_n]
  simp only [K3.neg, ← neg_fin, mul_n, Fl.abs_neg]

theorem nnBeta_m (net : Fl → Fl → Fl → Fl) (G h : Fl) (k : K3) : I.nnBeta net G h k.mirror2 = I.nnBeta net G h k := by
  simp only [nnBeta, whereZero_m]
  simp only [K3.mirror2, ← neg_fin, mul_n, Fl.abs_neg]

theorem shear_n (L E0 : Fl) (k : K3) (b : Fl) (hU : k.k1 ≠ 0 → I.num k b = fin 0 → ¬ Fl.lt (I.den k b) (fin 0)) (i j : Fin 3) :
    I.shear L E0 k.neg b i j = -I.shear L E0 k b i j := by
  unfold shear
  rw [k30_n, I.zeta1_n k b hU, I.zeta2_n k b hU, zeta3_n]
  simp only [K3.neg, ← neg_fin, sumsq_n]
  fin_cases i <;> simp only [cross_n, mul_n', add_nn] <;> rfl

theorem shear_m (L E0 : Fl) (k : K3) (b : Fl) (i j : Fin 3) :
    I.shear L E0 k.mirror2 b i j = if (i = 1 ↔ j = 1) then -I.shear L E0 k b i j else I.shear L E0 k b i j := by
  unfold shear
  rw [k30_m, zeta1_m, zeta2_m, zeta3_m, nanToNum_neg]
  simp only [K3.mirror2, ← neg_fin, sumsq_m]
  have z : -fin 0 = fin 0 := by simp
  have hz : ∀ x, I.add (fin 0) (-x) = -I.add (fin 0) x := fun x => by rw [← I.add_nn, z]
  have hz' : ∀ x, I.add (-x) (fin 0) = -I.add x (fin 0) := fun x => by rw [← I.add_nn, z]
  have hm : ∀ x : ℝ, I.mul (fin x) (fin 0) = fin 0 := fun x => by simp [mul, R_zero]
  have h0 : -I.add (fin 0) (fin 0) = I.add (fin 0) (fin 0) := by rw [← I.add_nn, z]
  fin_cases i <;> fin_cases j <;> simp [cross, mul_n', mul_n, add_nn, Fl.neg_neg, hz, hz', hm, h0, z, -neg_fin]

end Ieee


/-- **C140** Negation of the wavevector, exactly: in every arithmetic whose rounding commutes with negation, also when intermediate results
overflow or underflow, the computed kernels at `-k` are the negatives of those at `k`.  With the factor `1j` this is complex
conjugation, which makes the spectral field Hermitian and the wind field real.  The hypothesis on `arctan2` excludes the jump on the negative half-axis
where the sign of a zero, which the model does not have, matters. -/
theorem C140_hermitian (I : Ieee) (k : K3) (L E0 Gamma h : Fl) (net : Fl → Fl → Fl → Fl) (i j : Fin 3) :
    I.vk L E0 k.neg i j = -I.vk L E0 k i j ∧
    ((k.k1 ≠ 0 → I.num k (I.mannBeta L Gamma k) = fin 0 → ¬ Fl.lt (I.den k (I.mannBeta L Gamma k)) (fin 0)) →
      I.mann L E0 Gamma k.neg i j = -I.mann L E0 Gamma k i j) ∧
    ((k.k1 ≠ 0 → I.num k (I.nnBeta net Gamma h k) = fin 0 → ¬ Fl.lt (I.den k (I.nnBeta net Gamma h k)) (fin 0)) →
      I.nn net L E0 Gamma h k.neg i j = -I.nn net L E0 Gamma h k i j) := by
  refine ⟨?_, fun hU => ?_, fun hU => ?_⟩
  · unfold Ieee.vk
    simp only [K3.neg, ← neg_fin, Ieee.sumsq_n, Ieee.cross_n]
  · unfold Ieee.mann
    rw [I.mannBeta_n, I.shear_n L E0 k _ hU]
  · unfold Ieee.nn
    rw [I.nnBeta_n, I.shear_n L E0 k _ hU]

/-- **C140** Reversal of the lateral wavenumber, exactly: the entries with one lateral index keep their value and the others change sign. -/
theorem C140_mirror (I : Ieee) (k : K3) (L E0 Gamma h : Fl) (net : Fl → Fl → Fl → Fl) (i j : Fin 3) :
    let flip : Fl → Fl := fun x => if (i = 1 ↔ j = 1) then -x else x
    I.vk L E0 k.mirror2 i j = flip (I.vk L E0 k i j) ∧
    I.mann L E0 Gamma k.mirror2 i j = flip (I.mann L E0 Gamma k i j) ∧
    I.nn net L E0 Gamma h k.mirror2 i j = flip (I.nn net L E0 Gamma h k i j) := by
  refine ⟨?_, ?_, ?_⟩
  · unfold Ieee.vk
    simp only [K3.mirror2, ← neg_fin, Ieee.sumsq_m]
    have z : -fin 0 = fin 0 := by simp
    fin_cases i <;> fin_cases j <;> simp [Ieee.cross, Ieee.mul_n', Ieee.mul_n, Fl.neg_neg, z, -neg_fin]
  · unfold Ieee.mann
    rw [I.mannBeta_m, I.shear_m]
  · unfold Ieee.nn
    rw [I.nnBeta_m, I.shear_m]

namespace Ieee

theorem atan2_symm (y x : Fl) (h : y ≠ fin 0) : Fl.atan2 (-y) x = -Fl.atan2 y x := by
  cases y with
  | fin y =>
    cases x with
    | fin x =>
      have hy : y ≠ 0 := fun e => h (by rw [e])
      rw [neg_fin, atan2_fin, atan2_fin, neg_fin]
      have e : (⟨x, -y⟩ : ℂ) = (starRingEnd ℂ) ⟨x, y⟩ := rfl
      have hn : Complex.arg ⟨x, y⟩ ≠ Real.pi := by
        rw [Ne, Complex.arg_eq_pi_iff]
        exact fun h => hy h.2
      rw [e, Complex.arg_conj, if_neg hn]
    | _ => rfl
  | _ => cases x <;> rfl

theorem atan2_fin_zero (x : Fl) (h : ¬ Fl.lt x (fin 0)) : Fl.atan2 (fin 0) x = fin 0 ∨ Fl.atan2 (fin 0) x = nan := by
  cases x with
  | fin x =>
    left
    have hx : 0 ≤ x := not_lt.1 h
    rw [atan2_fin]
    have e : (⟨x, 0⟩ : ℂ) = (x : ℂ) := rfl
    rw [e, Complex.arg_ofReal_of_nonneg hx]
  | _ => right; rfl

/-- Any odd rounding with the exact library functions. -/
def ofRnd (hyp : ℝ → ℝ) (rnd : ℝ → Fl) (odd : ∀ x, rnd (-x) = -rnd x) (zero : rnd 0 = fin 0) : Ieee where
  rnd := rnd
  odd := odd
  zero := zero
  sqrt := Fl.sqrt
  pow := Fl.pow
  hyp := liftR hyp
  atan2 := Fl.atan2
  atan2_odd := atan2_symm
  atan2_zero := atan2_fin_zero

/-- Exact arithmetic. -/
def exact (hyp : ℝ → ℝ) : Ieee := ofRnd hyp fin (fun x => (neg_fin x).symm) rfl

theorem exact_R (hyp : ℝ → ℝ) (x : Fl) : (exact hyp).R x = x := by cases x <;> rfl

/-- A rounding that overflows above `M` and flushes to zero below `m`. -/
def clip (M m : ℝ) (x : ℝ) : Fl :=
  if M < x then pinf else if x < -M then ninf else if |x| < m then fin 0 else fin (Fmt.nearest 53 x)

theorem clip_odd {M : ℝ} (m : ℝ) (hM : 0 ≤ M) (x : ℝ) : clip M m (-x) = -clip M m x := by
  unfold clip
  rw [abs_neg]
  by_cases h1 : M < x
  · rw [if_neg (by linarith), if_pos (by linarith), if_pos h1]; rfl
  · by_cases h2 : x < -M
    · rw [if_pos (by linarith), if_neg h1, if_pos h2]; rfl
    · rw [if_neg (by linarith), if_neg (by linarith), if_neg h1, if_neg h2]
      split_ifs
      · simp
      · rw [neg_fin]; congr 1; exact (Fmt.binary 53 (by norm_num)).odd x

theorem clip_zero {M : ℝ} (m : ℝ) (hM : 0 ≤ M) : clip M m 0 = fin 0 := by
  unfold clip
  rw [if_neg (by linarith), if_neg (by linarith)]
  split_ifs
  · rfl
  · simp [Fmt.nearest]

end Ieee

/-- **C140** In exact arithmetic the kernels of this file are those of `Model/Kernels.lean`. -/
theorem C140_exact (hyp : ℝ → ℝ) (net : TauNet) (L E0 Gamma h : ℝ) (k : K3) :
    let I := Ieee.exact hyp
    I.vk (fin L) (fin E0) k = vkKernel L E0 k ∧
    I.mann (fin L) (fin E0) (fin Gamma) k = mannKernel hyp L E0 Gamma k ∧
    I.nn (fun a b c => net.forward [a.toReal, b.toReal, c.toReal]) (fin L) (fin E0) (fin Gamma) (fin h) k
      = nnKernel net L E0 Gamma h k := by
  intro I
  have ha : ∀ x y, I.add x y = x + y := fun x y => Ieee.exact_R hyp _
  have hs : ∀ x y, I.sub x y = x - y := fun x y => Ieee.exact_R hyp _
  have hm : ∀ x y, I.mul x y = x * y := fun x y => Ieee.exact_R hyp _
  have hd : ∀ x y, I.div x y = x / y := fun x y => Ieee.exact_R hyp _
  have hkk : I.sumsq (fin k.k1) (fin k.k2) (fin k.k3) = fin (k.k1 ^ 2 + k.k2 ^ 2 + k.k3 ^ 2) := by
    simp only [Ieee.sumsq, Ieee.sq, ha, hm, fin_mul_fin, fin_add_fin]
    congr 1; ring
  have hc : ∀ kk, I.const (fin L) (fin E0) kk = kernelConst L E0 kk := by
    intro kk
    simp only [Ieee.const, Ieee.sq, ha, hm, hd, fin_mul_fin, kernelConst, pow_two]
    rfl
  have hx : ∀ c x y z, I.cross c x y z = crossMat c x y z := by
    intro c x y z
    funext i j
    fin_cases i <;> fin_cases j <;> simp [Ieee.cross, crossMat, hm]
  have hz : ∀ b, (I.zeta1 k b, I.zeta2 k b, I.zeta3 k b) = rdtZeta k b := by
    intro b
    simp only [Ieee.zeta1, Ieee.zeta2, Ieee.zeta3, Ieee.c1, Ieee.c2, hkk]
    simp only [Ieee.num, Ieee.den, Ieee.k30, Ieee.sumsq, Ieee.sq, ha, hs, hm, hd]
    rfl
  have hsh : ∀ b, I.shear (fin L) (fin E0) k b = shearKernel L E0 k b := by
    intro b
    have h1 : I.zeta1 k b = (rdtZeta k b).1 := by rw [← hz]
    have h2 : I.zeta2 k b = (rdtZeta k b).2.1 := by rw [← hz]
    have h3 : I.zeta3 k b = (rdtZeta k b).2.2 := by rw [← hz]
    funext i j
    unfold Ieee.shear shearKernel
    rw [h1, h2, h3]
    simp only [hx, hc, ha, hm, Ieee.k30, Ieee.sumsq, Ieee.sq]
    fin_cases i <;> rfl
  refine ⟨?_, ?_, ?_⟩
  · unfold Ieee.vk vkKernel
    rw [hkk, hx, hc]
  · have hb : I.mannBeta (fin L) (fin Gamma) k = mannBeta hyp L Gamma k := by
      simp only [Ieee.mannBeta, Ieee.whereZero, mannBeta, hkk, hm, hd, Ieee.sq, fin_inj, fin_mul_fin, ← pow_two]
      rfl
    unfold Ieee.mann mannKernel
    rw [hb, hsh]
  · have hb : I.nnBeta (fun a b c => net.forward [a.toReal, b.toReal, c.toReal]) (fin Gamma) (fin h) k
        = nnBeta net Gamma h k := by
      simp only [Ieee.nnBeta, Ieee.whereZero, nnBeta, hkk, hm, fin_inj, fin_mul_fin, abs_fin, toReal_fin]
      simp only [TauNet.forward, List.map, abs_abs]
    unfold Ieee.nn nnKernel
    rw [hb, hsh]

/-- A case with overflow: largest number 50, `k = (10, 10, 10)`, so `kk` and `s` are infinite and the numerator is infinite or NaN. -/
example : ∃ I : Ieee, ∃ k : K3, I.sumsq (fin k.k1) (fin k.k2) (fin k.k3) = pinf ∧
    (k.k1 ≠ 0 → I.num k (I.mannBeta (fin 1) (fin 3) k) = fin 0 → ¬ Fl.lt (I.den k (I.mannBeta (fin 1) (fin 3) k)) (fin 0)) := by
  let I := Ieee.ofRnd (fun _ => 1) (Ieee.clip 50 0) (Ieee.clip_odd 0 (by norm_num)) (Ieee.clip_zero 0 (by norm_num))
  have hs : I.sq (fin 10) = pinf := by
    change Ieee.clip 50 0 (10 * 10) = pinf
    exact if_pos (by norm_num)
  have ht : I.add pinf pinf = pinf := rfl
  have hn : ∀ y : Fl, I.mul y pinf ≠ fin 0 := by
    intro y
    cases y with
    | fin y =>
      change I.R (infMul y) ≠ fin 0
      rcases lt_trichotomy y 0 with h | rfl | h
      · rw [infMul_neg h]; exact fun h => by cases h
      · rw [infMul_zero]; exact fun h => by cases h
      · rw [infMul_pos h]; exact fun h => by cases h
    | _ => exact fun h => by cases h
  refine ⟨I, ⟨10, 10, 10⟩, ?_, fun _ h => absurd h ?_⟩
  · simp only [Ieee.sumsq, hs, ht]
  · simp only [Ieee.num, hs, ht]
    exact hn _

end
end Verif
