import Verif.Model.RoundedTensor
import Verif.Props.RoundingShear
import Verif.Props.RoundingSpectrum
import Verif.Props.FitUnits

/-!
# C144: rounding errors of all fitted spectra

Only component `ww` is free of cancellation (C137).  The other spectra subtract numbers of similar size; their errors are small
compared with the sum of the three auto spectra, in whatever order torch adds, and for `uw` up to the jumps of the floor.
-/

namespace Verif
open Fl Fmt Spec

noncomputable section

/-! ### Sums and integrals of signed numbers -/

theorem ScaleNear.trans {a b S x y z : ℝ} (h : ScaleNear a S x y) (h' : ScaleNear b (Real.exp a * S) y z) :
    ScaleNear (a + b) S x z := by
  refine ⟨add_nonneg h.1 h'.1, h.2.1, ?_⟩
  have h1 := h.2.2
  have h2 := h'.2.2
  have h3 : |z - x| ≤ |z - y| + |y - x| := abs_sub_le _ _ _
  rw [Real.exp_add]
  linarith

/-- The error of a sum in any order is small compared with the sum of the absolute values. -/
theorem Fmt.Summation.scale {A : Fmt} {l : List ℝ} {s : ℝ} {d : ℕ} (h : Summation A l s d) :
    ScaleNear (d * A.e) (l.map fun x => |x|).sum l.sum s := by
  have e0 := A.e_nonneg
  induction h with
  | zero => exact ⟨by simp, by simp, by simp⟩
  | one x => exact ⟨by simp, by simp, by simp⟩
  | @add l l1 l2 s1 s2 d d1 d2 _ _ p b1 b2 i1 i2 =>
    rw [p.sum_eq, (p.map _).sum_eq, List.map_append, List.sum_append, List.sum_append]
    obtain ⟨c, rfl⟩ : ∃ c, d = c + 1 := ⟨d - 1, by omega⟩
    have m1 : (d1 : ℝ) * A.e ≤ c * A.e := mul_le_mul_of_nonneg_right (by exact_mod_cast Nat.lt_succ_iff.1 b1) e0
    have m2 : (d2 : ℝ) * A.e ≤ c * A.e := mul_le_mul_of_nonneg_right (by exact_mod_cast Nat.lt_succ_iff.1 b2) e0
    exact (((i1.mono m1 le_rfl).add (i2.mono m2 le_rfl)).rnd A).mono (le_of_eq (by push_cast; ring)) le_rfl

section quadrature
variable {A : Fmt}

theorem trapzTerms_scale {g : List ℝ} (hg : g.Pairwise (· ≤ ·)) {f f' S : ℝ → ℝ} {a : ℝ} (ha : 0 ≤ a)
    (h : ∀ x ∈ g, ScaleNear a (S x) (f x) (f' x)) :
    ScaleNear (a + 3 * A.e) (2 * trapz g (g.map S)) (2 * trapz g (g.map f)) (A.trapzTerms g (g.map f')).sum ∧
      ((A.trapzTerms g (g.map f')).map fun x => |x|).sum ≤ Real.exp (a + 3 * A.e) * (2 * trapz g (g.map S)) := by
  have e0 := A.e_nonneg
  have hz : ScaleNear (a + 3 * A.e) 0 0 0 := ⟨by positivity, by simp, by simp⟩
  induction g with
  | nil =>
    simp only [List.map_nil, trapz, Fmt.trapzTerms, List.sum_nil, mul_zero]
    exact ⟨hz, le_rfl⟩
  | cons x t ih =>
    cases t with
    | nil =>
      simp only [List.map_cons, List.map_nil, trapz, Fmt.trapzTerms, List.sum_nil, mul_zero]
      exact ⟨hz, le_rfl⟩
    | cons y r =>
      have hg' := List.pairwise_cons.1 hg
      obtain ⟨i1, i2⟩ := ih hg'.2 (fun z hz => h z (List.mem_cons_of_mem _ hz))
      have hxy : 0 ≤ y - x := sub_nonneg.2 (hg'.1 y (by simp))
      have t1 := ((((h x (by simp)).add (h y (by simp))).rnd A).mul (ScaleNear.of_log (A.rnd_near (y - x)))).rnd A
      rw [abs_of_nonneg hxy] at t1
      have t2 : ScaleNear (a + 3 * A.e) ((S x + S y) * (y - x)) ((f x + f y) * (y - x)) (A.mul (A.add (f' x) (f' y)) (A.sub y x)) :=
        t1.mono (le_of_eq (by ring)) le_rfl
      have e1 : ∀ u : ℝ → ℝ, 2 * trapz (x :: y :: r) ((x :: y :: r).map u) =
          (u x + u y) * (y - x) + 2 * trapz (y :: r) ((y :: r).map u) := by
        intro u
        simp only [List.map_cons, trapz, smul_eq_mul]; ring
      have e2 : A.trapzTerms (x :: y :: r) ((x :: y :: r).map f') =
          A.mul (A.add (f' x) (f' y)) (A.sub y x) :: A.trapzTerms (y :: r) ((y :: r).map f') := rfl
      have e3 : ∀ (u : ℝ) (l : List ℝ), ((u :: l).map fun x => |x|).sum = |u| + (l.map fun x => |x|).sum := fun u l => by simp
      rw [e1, e1, e2, List.sum_cons, e3]
      refine ⟨t2.add i1, ?_⟩
      have := t2.abs_right
      linarith

/-- The trapezoidal rule adds `d + 4` units of error relative to the integral of the scale. -/
theorem trapzOf_scale {g : List ℝ} (hg : g.Pairwise (· ≤ ·)) {f f' S : ℝ → ℝ} {a t : ℝ} {d : ℕ} (ha : 0 ≤ a)
    (h : ∀ x ∈ g, ScaleNear a (S x) (f x) (f' x)) (ht : A.TrapzOf g (g.map f') t d) :
    ScaleNear (a + (d + 4) * A.e) (trapz g (g.map S)) (trapz g (g.map f)) t := by
  obtain ⟨s, hs, rfl⟩ := ht
  obtain ⟨i1, i2⟩ := trapzTerms_scale (A := A) hg ha h
  have e0 := A.e_nonneg
  have h1 := i1.trans (hs.scale.mono le_rfl i2)
  have h2 : ScaleNear 0 (1 / 2) (1 / 2) (1 / 2) := ⟨le_rfl, by rw [abs_of_pos (by norm_num)], by simp⟩
  have h3 := (h1.mul h2).rnd A
  have e1 : ∀ z : ℝ, 2 * z * (1 / 2) = z := fun z => by ring
  rw [e1, e1, mul_one_div] at h3
  exact h3.mono (le_of_eq (by ring)) le_rfl

theorem quad23Of_scale {g : List ℝ} (hg : g.Pairwise (· ≤ ·)) {f f' S : ℝ → ℝ → ℝ} {a q : ℝ} {d : ℕ} (ha : 0 ≤ a)
    (h : ∀ x ∈ g, ∀ y ∈ g, ScaleNear a (S x y) (f x y) (f' x y)) (hq : A.Quad23Of g g f' q d) :
    ScaleNear (a + 2 * (d + 4) * A.e) (quad23 g g S) (quad23 g g f) q := by
  obtain ⟨row, hr, ht⟩ := hq
  have e0 := A.e_nonneg
  have h1 : ∀ x ∈ g, ScaleNear (a + (d + 4) * A.e) (trapz g (g.map (S x))) (trapz g (g.map (f x))) (row x) := fun x hx =>
    trapzOf_scale hg ha (h x hx) (hr x hx)
  have h2 := trapzOf_scale (f := fun x => trapz g (g.map (f x))) (S := fun x => trapz g (g.map (S x))) hg (by positivity) h1 ht
  exact h2.mono (le_of_eq (by ring)) le_rfl

end quadrature

/-! ### The tensor at one wavevector -/

namespace ShearSetting
variable {A : ShearFmt} {k : K3} {b b' a h : ℝ} (H : ShearSetting A k k b b' a 0 A.e h)

/-- Scale of the coefficients `zeta1`, `zeta2`. -/
def zW (k : K3) (b : ℝ) : ℝ := 7 * (1 + |b|) ^ 2 * (kk0R k b / kkR k)

/-- Scale of the rows of the kernel. -/
def zP (k : K3) (b : ℝ) : ℝ := kapN k b + zW k b * sN k

theorem zW_nonneg (k : K3) (b : ℝ) : 0 ≤ zW k b := by
  have : 0 ≤ kk0R k b / kkR k := div_nonneg (kk0R_nonneg k b) (kkR_nonneg k)
  unfold zW; positivity

include H

theorem fitC2_near (hk : k.k1 ≠ 0) : LogNear (221 * ((1 + |b|) * h)) (c2R k b) (A.fitC2 k b') := by
  have h1 := A.mul_near (LogNear.refl k.k2) H.kk0
  have h2 := A.sqrt_near (A.powGiven_near (s_near A k) (sR_pos hk) 3)
  rw [abs_of_pos (by norm_num), Real.sqrt_eq_rpow, ← Real.rpow_mul (sR_pos hk).le, show (3 * (1 / 2) : ℝ) = 3 / 2 by norm_num] at h2
  exact (A.mul_near (A.div_near h1 h2) H.angle).mono (by linarith [H.four, H.le_B, H.h0])

theorem fitZeta1_near (hk : k.k1 ≠ 0) : ScaleNear (222 * ((1 + |b|) * h)) (zW k b) (z1R k b) (A.fitZeta1 k b') := by
  have b0 := abs_nonneg b
  have hh := H.h0
  have f := H.four
  have g := H.le_B
  have e0 := A.e_nonneg
  have z3 : 0 ≤ kk0R k b / kkR k := div_nonneg (kk0R_nonneg k b) (kkR_nonneg k)
  have p1 := ScaleNear.of_log (A.mul_near (A.div_near (LogNear.refl k.k2) (LogNear.refl k.k1)) (H.fitC2_near hk))
  have p2 := ((H.c1.mono (b := 221 * ((1 + |b|) * h) + 2 * A.e) (by linarith) le_rfl).sub (p1.mono (by linarith) le_rfl)).rnd A.toFmt
  refine p2.mono (by linarith) ?_
  have i1 := s1_le (b := b) hk (t := 1) (by rw [abs_one, one_mul]; unfold sR; nlinarith [mul_self_nonneg k.k2])
  have i2 := c2_ratio (b := b) hk (t := k.k2 / k.k1) (by
    rw [abs_div]
    have := abs_pos.2 hk
    rw [show |k.k2| / |k.k1| * (|k.k2| * |k.k1|) = |k.k2| * |k.k2| by field_simp, abs_mul_abs_self]
    unfold sR; nlinarith [mul_self_nonneg k.k1])
  rw [abs_one, one_mul] at i1
  have := Real.pi_le_four
  have i3 := mul_le_mul_of_nonneg_right this (show 0 ≤ (1 + |b|) ^ 2 * (kk0R k b / kkR k) by positivity)
  unfold zW
  linarith

theorem fitZeta2_near (hk : k.k1 ≠ 0) : ScaleNear (222 * ((1 + |b|) * h)) (zW k b) (z2R k b) (A.fitZeta2 k b') := by
  have b0 := abs_nonneg b
  have hh := H.h0
  have f := H.four
  have g := H.le_B
  have e0 := A.e_nonneg
  have z3 : 0 ≤ kk0R k b / kkR k := div_nonneg (kk0R_nonneg k b) (kkR_nonneg k)
  have p00 := (H.c1.mul (ScaleNear.of_log (LogNear.refl k.k2))).rnd A.toFmt
  have p0 := (p00.mul (ScaleNear.of_log (LogNear.refl k.k1).inv)).rnd A.toFmt
  have p1 := ScaleNear.of_log (H.fitC2_near hk)
  have p2 := ((p0.mono (b := 221 * ((1 + |b|) * h)) (by linarith) le_rfl).add p1).rnd A.toFmt
  have hp := abs_pos.2 hk
  have i1 := s1_le (b := b) hk (t := k.k2 / k.k1) (by
    rw [abs_div, ← abs_mul_abs_self k.k1, show |k.k2| / |k.k1| * (|k.k1| * |k.k1|) = |k.k2| * |k.k1| by field_simp]
    exact cross_le k)
  have i2 := c2_ratio (b := b) hk (t := 1) (by rw [abs_one, one_mul]; exact cross_le k)
  rw [one_mul] at i2
  have := Real.pi_le_four
  have i3 := mul_le_mul_of_nonneg_right this (show 0 ≤ (1 + |b|) ^ 2 * (kk0R k b / kkR k) by positivity)
  have ez : z2R k b = c1R k b * k.k2 * k.k1⁻¹ + c2R k b := by unfold z2R; field_simp
  rw [ez]
  refine p2.mono (by linarith) ?_
  have e4 : s1 k b * |k.k2| * |k.k1⁻¹| = |k.k2 / k.k1| * s1 k b := by rw [abs_div, abs_inv]; ring
  rw [e4]
  unfold zW
  linarith

omit H in
theorem self_scale {x S : ℝ} (hx : |x| ≤ S) : ScaleNear 0 S x x := (ScaleNear.of_log (LogNear.refl x)).mono le_rfl hx

/-- The bracket of `Phi11` and `Phi22`. -/
theorem auto_near {q z z' : ℝ} (hq : |q| ≤ sN k) (hz : ScaleNear (222 * ((1 + |b|) * h)) (zW k b) z z') :
    ScaleNear (446 * ((1 + |b|) * h)) (2 * zP k b ^ 2) (kk0R k b - q * q - 2 * q * k30R k b * z + sR k * (z * z))
      (A.add (A.sub (A.sub (A.sumsq k.k1 k.k2 (A.k30 k b')) (A.sq q)) (A.mul (A.mul (A.mul 2 q) (A.k30 k b')) z'))
        (A.mul (A.add (A.sq k.k1) (A.sq k.k2)) (A.sq z'))) := by
  have hh := H.h0
  have f := H.four
  have g := H.le_B
  have e0 := A.e_nonneg
  have K := self_scale hq
  have T2 : ScaleNear 0 2 2 2 := self_scale (by norm_num)
  have q1 := (H.kk0_scale.sub (((K.mul K).rnd A.toFmt).mono (b := 5 * h) (by linarith) le_rfl)).rnd A.toFmt
  have q2 := (((((T2.mul K).rnd A.toFmt).mul H.k30).rnd A.toFmt).mul hz).rnd A.toFmt
  have q3 := (((ScaleNear.of_log (s_near A k)).mul ((hz.mul hz).rnd A.toFmt))).rnd A.toFmt
  have q4 := ((q1.mono (b := 444 * ((1 + |b|) * h) + 4 * A.e) (by linarith) le_rfl).sub (q2.mono (by linarith) le_rfl)).rnd A.toFmt
  have q5 := (q4.add (q3.mono (b := 444 * ((1 + |b|) * h) + 4 * A.e + A.e) (by linarith) le_rfl)).rnd A.toFmt
  refine q5.mono (by linarith) ?_
  rw [abs_of_nonneg (sR_nonneg k), ← sN_sq]
  have s0 := sN_nonneg k
  have w0 := zW_nonneg k b
  have c0 := kapN_nonneg k b
  have i1 := mul_le_mul (sN_le_kapN k b) (sN_le_kapN k b) s0 c0
  have i2 : 0 ≤ kapN k b * (zW k b * sN k) := by positivity
  have i3 : 0 ≤ (zW k b * sN k) * (zW k b * sN k) := by positivity
  unfold zP
  nlinarith

/-- The bracket of `Phi13` and `Phi23`. -/
theorem mixed_near {q z z' : ℝ} (hq : |q| ≤ sN k) (hz : ScaleNear (222 * ((1 + |b|) * h)) (zW k b) z z') :
    ScaleNear (446 * ((1 + |b|) * h)) (sN k * zP k b) (-q * k30R k b + sR k * z)
      (A.add (A.mul (-q) (A.k30 k b')) (A.mul (A.add (A.sq k.k1) (A.sq k.k2)) z')) := by
  have hh := H.h0
  have f := H.four
  have g := H.le_B
  have e0 := A.e_nonneg
  have K := self_scale (x := -q) (S := sN k) (by rwa [abs_neg])
  have q1 := (K.mul H.k30).rnd A.toFmt
  have q2 := ((ScaleNear.of_log (s_near A k)).mul hz).rnd A.toFmt
  have q3 := ((q1.mono (b := 222 * ((1 + |b|) * h) + 3 * A.e) (by linarith) le_rfl).add (q2.mono (by linarith) le_rfl)).rnd A.toFmt
  refine q3.mono (by linarith) (le_of_eq ?_)
  rw [abs_of_nonneg (sR_nonneg k), ← sN_sq]
  unfold zP
  ring

/-- The bracket of `Phi12`. -/
theorem cross_near {z1 z1' z2 z2' : ℝ} (hz1 : ScaleNear (222 * ((1 + |b|) * h)) (zW k b) z1 z1')
    (hz2 : ScaleNear (222 * ((1 + |b|) * h)) (zW k b) z2 z2') :
    ScaleNear (446 * ((1 + |b|) * h)) (2 * zP k b ^ 2)
      (-k.k1 * k.k2 - k.k1 * k30R k b * z2 - k.k2 * k30R k b * z1 + sR k * z1 * z2)
      (A.add (A.sub (A.sub (A.mul (-k.k1) k.k2) (A.mul (A.mul k.k1 (A.k30 k b')) z2')) (A.mul (A.mul k.k2 (A.k30 k b')) z1'))
        (A.mul (A.mul (A.add (A.sq k.k1) (A.sq k.k2)) z1') z2')) := by
  have hh := H.h0
  have f := H.four
  have g := H.le_B
  have e0 := A.e_nonneg
  have K1 := self_scale (k1_le_sN k)
  have K2 := self_scale (k2_le_sN k)
  have K1' := self_scale (x := -k.k1) (S := sN k) (by rw [abs_neg]; exact k1_le_sN k)
  have q1 := (K1'.mul K2).rnd A.toFmt
  have q2 := ((((K1.mul H.k30).rnd A.toFmt).mul hz2)).rnd A.toFmt
  have q3 := ((((K2.mul H.k30).rnd A.toFmt).mul hz1)).rnd A.toFmt
  have q4 := ((((ScaleNear.of_log (s_near A k)).mul hz1).rnd A.toFmt).mul hz2).rnd A.toFmt
  have r1 := ((q1.mono (b := 444 * ((1 + |b|) * h) + 4 * A.e) (by linarith) le_rfl).sub (q2.mono (by linarith) le_rfl)).rnd A.toFmt
  have r2 := (r1.sub (q3.mono (b := 444 * ((1 + |b|) * h) + 4 * A.e + A.e) (by linarith) le_rfl)).rnd A.toFmt
  have r3 := (r2.add (q4.mono (b := 444 * ((1 + |b|) * h) + 4 * A.e + A.e + A.e) (by linarith) le_rfl)).rnd A.toFmt
  refine r3.mono (by linarith) ?_
  rw [abs_of_nonneg (sR_nonneg k), ← sN_sq]
  have s0 := sN_nonneg k
  have w0 := zW_nonneg k b
  have c0 := kapN_nonneg k b
  have i1 := mul_le_mul (sN_le_kapN k b) (sN_le_kapN k b) s0 c0
  have i2 : 0 ≤ kapN k b * (zW k b * sN k) := by positivity
  have i3 : 0 ≤ (zW k b * sN k) * (zW k b * sN k) := by positivity
  unfold zP
  nlinarith

omit H in
/-- The squared scale compared with the trace of the tensor. -/
theorem zP_le (hk : k.k1 ≠ 0) {E : ℝ → ℝ} (hE : 0 ≤ E (Real.sqrt (kk0R k b))) (hz : |z1R k b| ≤ zW k b) :
    E (Real.sqrt (kk0R k b)) / (4 * Real.pi) / (kk0R k b * kk0R k b) * (2 * zP k b ^ 2) ≤
      512 * (1 + |b|) ^ 4 * (shearedTensor E k.vec b 0 0 + shearedTensor E k.vec b 1 1 + shearedTensor E k.vec b 2 2) := by
  obtain ⟨w, hw⟩ : ∃ w, w = E (Real.sqrt (kk0R k b)) / (4 * Real.pi) / (kk0R k b * kk0R k b) := ⟨_, rfl⟩
  have hp := kk0R_pos (b := b) hk
  have w0 : 0 ≤ w := by
    have := Real.pi_pos
    rw [hw]; positivity
  have hc := Real.sqrt_nonneg w
  have hcc : Real.sqrt w * Real.sqrt w = w := Real.mul_self_sqrt w0
  have hs := scale_le hc k b (by rw [zc_generic hk]; exact hz)
  obtain ⟨N, hN⟩ : ∃ N, N = ∑ i, ∑ j, (Real.sqrt w * kerR k b i j) ^ 2 := ⟨_, rfl⟩
  have N0 : 0 ≤ N := by rw [hN]; positivity
  have et : shearedTensor E k.vec b 0 0 + shearedTensor E k.vec b 1 1 + shearedTensor E k.vec b 2 2 = N := by
    rw [hN]
    simp only [shearedTensor_eq hk, ← hw, Fin.sum_univ_three, mul_pow, pow_two (Real.sqrt w), hcc]
    ring
  rw [← hN] at hs
  rw [et, ← hw]
  have e1 : Real.sqrt w * kapN k b + 7 * (1 + |b|) ^ 2 * (kk0R k b / kkR k) * (Real.sqrt w * sN k) = Real.sqrt w * zP k b := by
    unfold zP zW; ring
  rw [e1] at hs
  have P0 : 0 ≤ Real.sqrt w * zP k b :=
    mul_nonneg hc (add_nonneg (kapN_nonneg k b) (mul_nonneg (zW_nonneg k b) (sN_nonneg k)))
  have h2 := mul_le_mul hs hs P0 (by positivity)
  have e2 : 16 * (1 + |b|) ^ 2 * Real.sqrt N * (16 * (1 + |b|) ^ 2 * Real.sqrt N) = 256 * (1 + |b|) ^ 4 * N := by
    rw [show 16 * (1 + |b|) ^ 2 * Real.sqrt N * (16 * (1 + |b|) ^ 2 * Real.sqrt N) = 256 * (1 + |b|) ^ 4 * (Real.sqrt N * Real.sqrt N) by ring,
      Real.mul_self_sqrt N0]
  have e3 : Real.sqrt w * zP k b * (Real.sqrt w * zP k b) = w * zP k b ^ 2 := by
    rw [show Real.sqrt w * zP k b * (Real.sqrt w * zP k b) = (Real.sqrt w * Real.sqrt w) * zP k b ^ 2 by ring, hcc]
  rw [e2, e3] at h2
  linarith

end ShearSetting

/-- The energy spectrum in rounded arithmetic. -/
theorem fitEnergy_near (A : ShearFmt) (p : OPSParams) {β b R B : ℝ} (k : K3) (hk : k.k1 ≠ 0) (hb : LogNear ((7 + R) * A.e) β b)
    (hB : |β| ≤ B) (hL : |p.logL| ≤ R) (hR : |Real.log (p.L * Real.sqrt (kk0R k β))| ≤ R)
    (hK : 16 * ((8 + R) * (1 + 3 * B)) * A.e ≤ 1) :
    LogNear ((3 * spectrumGain p.sp * ((8 + R) * (1 + 3 * B)) + 8 + 2 * R) * A.e)
      (energyOf p.L p.M p.sp (Real.sqrt (kk0R k β)) / (4 * Real.pi)) (A.fitEnergy p.sp (A.expF p.logL) (A.expF p.logM) b k) := by
  have e0 := A.e_nonneg
  have R0 := (abs_nonneg _).trans hL
  have B0 := (abs_nonneg _).trans hB
  have hpos := kk0R_pos (k := k) (b := β) hk
  have he : A.e ≤ 1 / 128 := by
    nlinarith [mul_nonneg (mul_nonneg (by linarith : (0:ℝ) ≤ 8 + R) B0) e0]
  have Lp := p.L_pos
  have hLn : LogNear A.e p.L (A.expF p.logL) := A.exp_near _
  have hMn : LogNear A.e p.M (A.expF p.logM) := A.exp_near _
  have a0 := A.mul_near hLn (k0_near k hb hB R0 hK hpos)
  have a1 := spectrum_near (A := A.toFmt) p.sp a0 (mul_pos Lp (Real.sqrt_pos.2 hpos)) hR (by linarith)
  have hlog : |Real.log p.L| ≤ R := by rw [OPSParams.L, Real.log_exp]; exact hL
  have a2 := A.mul_near hMn (A.powLit_near hLn Lp hlog (5 / 3))
  have a3 := A.div_near (A.mul_near a2 a1) (A.rnd_near (4 * Real.pi))
  rw [← energyOf_specR p.sp Lp (Real.sqrt_pos.2 hpos)] at a3
  have G0 : 0 ≤ spectrumGain p.sp := by unfold spectrumGain; split <;> positivity
  refine a3.mono ?_
  rw [abs_of_pos (by norm_num : (0:ℝ) < 5 / 3)]
  obtain ⟨G, hG⟩ : ∃ G, G = spectrumGain p.sp := ⟨_, rfl⟩
  obtain ⟨K, hKd⟩ : ∃ K, K = (8 + R) * (1 + 3 * B) := ⟨_, rfl⟩
  rw [← hG] at G0 ⊢
  rw [← hKd]
  have hK8 : 8 + R ≤ K := by rw [hKd]; nlinarith
  have m1 : G * (A.e + (2 * K + 5 / 2) * A.e + A.e + (R + 2) * A.e) ≤ 3 * G * K * A.e := by
    have : A.e + (2 * K + 5 / 2) * A.e + A.e + (R + 2) * A.e ≤ 3 * K * A.e := by nlinarith
    nlinarith [mul_le_mul_of_nonneg_left this G0]
  have m2 : A.e * (R + A.e) ≤ A.e * (R + 1 / 128) := by gcongr
  nlinarith

/-- The textbook tensor at one wavevector, in the order of the returned tuple. -/
def Spec.fitSix (p : OPSParams) (k1 k2 k3 : ℝ) : Fin 6 → ℝ :=
  ![fitTensor p k1 k2 k3 0 0, fitTensor p k1 k2 k3 1 1, fitTensor p k1 k2 k3 2 2, fitTensor p k1 k2 k3 0 2,
    fitTensor p k1 k2 k3 1 2, fitTensor p k1 k2 k3 0 1]

/-- Sum of the three auto components. -/
def Spec.fitTrace (p : OPSParams) (k1 k2 k3 : ℝ) : ℝ := fitTensor p k1 k2 k3 0 0 + fitTensor p k1 k2 k3 1 1 + fitTensor p k1 k2 k3 2 2

/-- The components before the floor. -/
def ShearFmt.fitRaw (A : ShearFmt) (sp : SpectrumChoice) (L M b : ℝ) (k : K3) : Fin 6 → ℝ :=
  let k30 := A.k30 k b
  let kk0 := A.sumsq k.k1 k.k2 k30
  let kk := A.sumsq k.k1 k.k2 k.k3
  let s := A.add (A.sq k.k1) (A.sq k.k2)
  let z1 := A.fitZeta1 k b
  let z2 := A.fitZeta2 k b
  let E0 := A.fitEnergy sp L M b k
  ![A.mul (A.div E0 (A.sq kk0))
      (A.add (A.sub (A.sub kk0 (A.sq k.k1)) (A.mul (A.mul (A.mul 2 k.k1) k30) z1)) (A.mul s (A.sq z1))),
    A.mul (A.div E0 (A.sq kk0))
      (A.add (A.sub (A.sub kk0 (A.sq k.k2)) (A.mul (A.mul (A.mul 2 k.k2) k30) z2)) (A.mul s (A.sq z2))),
    A.mul (A.div E0 (A.sq kk)) s,
    A.mul (A.div E0 (A.mul kk kk0)) (A.add (A.mul (-k.k1) k30) (A.mul s z1)),
    A.mul (A.div E0 (A.mul kk kk0)) (A.add (A.mul (-k.k2) k30) (A.mul s z2)),
    A.mul (A.div E0 (A.sq kk0))
      (A.add (A.sub (A.sub (A.mul (-k.k1) k.k2) (A.mul (A.mul k.k1 k30) z2)) (A.mul (A.mul k.k2 k30) z1))
        (A.mul (A.mul s z1) z2))]

theorem fitRaw_near (A : ShearFmt) (p : OPSParams) {k1 b a h F : ℝ} (hk : k1 ≠ 0) (k2 k3 : ℝ)
    (H : ShearSetting A ⟨k1, k2, k3⟩ ⟨k1, k2, k3⟩ (eddyLifetime p.hyp p.ty p.L p.T ⟨k1, k2, k3⟩).toReal b a 0 A.e h)
    (hE : LogNear F (energyOf p.L p.M p.sp (Real.sqrt (kk0R ⟨k1, k2, k3⟩ (eddyLifetime p.hyp p.ty p.L p.T ⟨k1, k2, k3⟩).toReal)) /
      (4 * Real.pi)) (A.fitEnergy p.sp (A.expF p.logL) (A.expF p.logM) b ⟨k1, k2, k3⟩)) (i : Fin 6) :
    ScaleNear (F + 468 * ((1 + |(eddyLifetime p.hyp p.ty p.L p.T ⟨k1, k2, k3⟩).toReal|) * h))
      (512 * (1 + |(eddyLifetime p.hyp p.ty p.L p.T ⟨k1, k2, k3⟩).toReal|) ^ 4 * fitTrace p k1 k2 k3) (fitSix p k1 k2 k3 i)
      (A.fitRaw p.sp (A.expF p.logL) (A.expF p.logM) b ⟨k1, k2, k3⟩ i) := by
  obtain ⟨β, hβ⟩ : ∃ β, β = (eddyLifetime p.hyp p.ty p.L p.T ⟨k1, k2, k3⟩).toReal := ⟨_, rfl⟩
  obtain ⟨k, hkk⟩ : ∃ k : K3, k = ⟨k1, k2, k3⟩ := ⟨_, rfl⟩
  have hT : ∀ i j, fitTensor p k1 k2 k3 i j = shearedTensor (energyOf p.L p.M p.sp) k.vec β i j := by
    intro i j
    unfold fitTensor
    rw [← hβ, hkk]; rfl
  unfold fitTrace fitSix
  simp only [hT]
  rw [← hβ] at H hE ⊢
  rw [← hkk] at H hE ⊢
  have hk' : k.k1 ≠ 0 := by rw [hkk]; exact hk
  have hph := phiRaw_sheared (k := k) hk' β (energyOf p.L p.M p.sp)
  rw [phiRaw_fin hk'] at hph
  simp only [Phi6.mk.injEq, Fl.fin.injEq] at hph
  obtain ⟨h11, h22, h33, h13, h23, h12⟩ := hph
  have hpos := kk0R_pos (k := k) (b := β) hk'
  have kkp := kkR_pos (k := k) hk'
  have spos := sR_pos (k := k) hk'
  have hEn : 0 ≤ energyOf p.L p.M p.sp (Real.sqrt (kk0R k β)) := by
    rw [energyOf_specR p.sp p.L_pos (Real.sqrt_pos.2 hpos)]
    have := specR_pos p.sp (mul_pos p.L_pos (Real.sqrt_pos.2 hpos))
    have := p.L_pos
    have := p.M_pos
    positivity
  have Z1 := H.fitZeta1_near hk'
  have Z2 := H.fitZeta2_near hk'
  have htr := ShearSetting.zP_le hk' hEn Z1.2.1
  obtain ⟨τ, hτ⟩ : ∃ τ, τ = shearedTensor (energyOf p.L p.M p.sp) k.vec β 0 0 + shearedTensor (energyOf p.L p.M p.sp) k.vec β 1 1 +
    shearedTensor (energyOf p.L p.M p.sp) k.vec β 2 2 := ⟨_, rfl⟩
  rw [← hτ] at htr ⊢
  obtain ⟨w, hw⟩ : ∃ w, w = energyOf p.L p.M p.sp (Real.sqrt (kk0R k β)) / (4 * Real.pi) := ⟨_, rfl⟩
  have w0 : 0 ≤ w := by have := Real.pi_pos; rw [hw]; positivity
  rw [← hw] at hE htr h11 h22 h33 h13 h23 h12
  have b0 := abs_nonneg β
  have hh := H.h0
  have f := H.four
  have g := H.le_B
  have e0 := A.e_nonneg
  have F0 := hE.nonneg
  -- prefactors
  have pre0 := ScaleNear.of_log (A.div_near hE (A.sq_near H.kk0))
  rw [abs_of_nonneg (by positivity)] at pre0
  have pre1 := ScaleNear.of_log (A.div_near hE (A.mul_near (ShearSetting.kk_near A k) H.kk0))
  rw [abs_of_nonneg (by positivity)] at pre1
  have W0 := ShearSetting.zW_nonneg k β
  have S0 := sN_nonneg k
  have C0 := kapN_nonneg k β
  have P0 : 0 ≤ ShearSetting.zP k β := add_nonneg C0 (mul_nonneg W0 S0)
  have hζ : kk0R k β / kkR k * sN k ≤ ShearSetting.zP k β := by
    have z0 : 0 ≤ kk0R k β / kkR k := by positivity
    have : kk0R k β / kkR k ≤ ShearSetting.zW k β := by
      unfold ShearSetting.zW
      refine le_mul_of_one_le_left z0 ?_
      have := one_le_pow₀ (n := 2) (show 1 ≤ 1 + |β| by linarith only [b0])
      linarith only [this]
    have := mul_le_mul_of_nonneg_right this S0
    unfold ShearSetting.zP
    linarith
  have mixed_scale : w / (kkR k * kk0R k β) * (sN k * ShearSetting.zP k β) ≤ w / (kk0R k β * kk0R k β) * (2 * ShearSetting.zP k β ^ 2) := by
    have e1 : w / (kkR k * kk0R k β) * (sN k * ShearSetting.zP k β) =
        w / (kk0R k β * kk0R k β) * ((kk0R k β / kkR k * sN k) * ShearSetting.zP k β) := by
      field_simp
    rw [e1]
    refine mul_le_mul_of_nonneg_left ?_ (by positivity)
    have h1 := mul_le_mul_of_nonneg_right hζ P0
    have h2 := mul_nonneg P0 P0
    rw [pow_two]
    linarith only [h1, h2]
  have fin0 : ∀ {S x y : ℝ}, ScaleNear (446 * ((1 + |β|) * h)) S x y → ∀ {g0 d q q' : ℝ}, ScaleNear g0 q d q' →
      g0 ≤ F + 20 * h + 5 * A.e → q * S ≤ w / (kk0R k β * kk0R k β) * (2 * ShearSetting.zP k β ^ 2) →
      ScaleNear (F + 468 * ((1 + |β|) * h)) (512 * (1 + |β|) ^ 4 * τ) (d * x)
        (A.mul q' y) := by
    intro S x y hS g0 d q q' hd hg0 hq
    exact ((hd.mul hS).rnd A.toFmt).mono (by linarith) (hq.trans htr)
  fin_cases i
  · change ScaleNear _ _ (shearedTensor (energyOf p.L p.M p.sp) k.vec β 0 0) _
    rw [← h11]
    exact fin0 (H.auto_near (k1_le_sN k) Z1) pre0 (by linarith) le_rfl
  · change ScaleNear _ _ (shearedTensor (energyOf p.L p.M p.sp) k.vec β 1 1) _
    rw [← h22]
    exact fin0 (H.auto_near (k2_le_sN k) Z2) pre0 (by linarith) le_rfl
  · change ScaleNear _ _ (shearedTensor (energyOf p.L p.M p.sp) k.vec β 2 2) _
    rw [← h33]
    have pre2 := ScaleNear.of_log (A.div_near hE (A.sq_near (ShearSetting.kk_near A k)))
    rw [abs_of_nonneg (by positivity)] at pre2
    have hS := ScaleNear.of_log (ShearSetting.s_near A k)
    rw [abs_of_pos spos] at hS
    refine fin0 (hS.mono (by linarith) le_rfl) pre2 (by linarith) ?_
    have e1 : w / (kkR k * kkR k) * sR k = w / (kk0R k β * kk0R k β) * ((kk0R k β / kkR k * sN k) * (kk0R k β / kkR k * sN k)) := by
      rw [← sN_sq]
      field_simp
    rw [e1]
    refine mul_le_mul_of_nonneg_left ?_ (by positivity)
    have h1 := mul_le_mul hζ hζ (by positivity) P0
    have h2 := mul_nonneg P0 P0
    rw [pow_two]
    linarith only [h1, h2]
  · change ScaleNear _ _ (shearedTensor (energyOf p.L p.M p.sp) k.vec β 0 2) _
    rw [← h13]
    exact fin0 (H.mixed_near (k1_le_sN k) Z1) pre1 (by linarith) mixed_scale
  · change ScaleNear _ _ (shearedTensor (energyOf p.L p.M p.sp) k.vec β 1 2) _
    rw [← h23]
    exact fin0 (H.mixed_near (k2_le_sN k) Z2) pre1 (by linarith) mixed_scale
  · change ScaleNear _ _ (shearedTensor (energyOf p.L p.M p.sp) k.vec β 0 1) _
    rw [← h12]
    exact fin0 (H.cross_near Z1 Z2) pre0 (by linarith) le_rfl

/-! ### Floors -/

theorem fitFloor_near (A : ShearFmt) {a S x x' : ℝ} (h : ScaleNear a S x x') (ha : A.e ≤ a) :
    ScaleNear a (S + 1e-12) (max x 1e-12) (A.fitFloor x') := by
  have S0 := h.scale_nonneg
  have hx := abs_le.1 h.2.1
  have g0 := ScaleNear.exp_sub_one_nonneg h.1
  unfold ShearFmt.fitFloor
  rw [ite_eq_max]
  refine ⟨h.1, ?_, ?_⟩
  · rw [abs_of_nonneg (le_max_of_le_right (by norm_num))]
    exact max_le (by linarith [hx.2]) (by linarith)
  · have e1 := (A.rnd_near 1e-12).sub_le
    rw [abs_of_pos (by norm_num : (0:ℝ) < 1e-12)] at e1
    have e2 : Real.exp A.e - 1 ≤ Real.exp a - 1 := by linarith [Real.exp_le_exp.2 ha]
    refine (abs_max_sub_max_le_max _ _ _ _).trans (max_le ?_ ?_)
    · refine h.2.2.trans ?_
      exact mul_le_mul_of_nonneg_left (by linarith) g0
    · refine e1.trans ?_
      have := mul_le_mul_of_nonneg_left e2 (by norm_num : (0:ℝ) ≤ 1e-12)
      have := mul_nonneg g0 S0
      linarith

/-- The signed floor jumps: the result is near a number that differs from the exact one by less than `3e-12`. -/
theorem fitFloorSigned_near (A : ShearFmt) (he : A.e ≤ 1 / 100) {a S x x' y : ℝ} (h : ScaleNear a S x x') (hy : |y - x| ≤ 1e-12) :
    ∃ z, |z - y| ≤ 3e-12 ∧ ScaleNear a (S + 2e-12) z (A.fitFloorSigned x') := by
  have e0 := A.e_nonneg
  have r1 : LogNear (A.e + A.e) (1e-12 : ℝ) (A.rnd (A.rnd 1e-12)) := (A.rnd_near _).trans (A.rnd_near _)
  have r2 := (A.rnd_near 1e-12).bounds (by norm_num)
  have r3 := r1.bounds (by norm_num)
  have u : Real.exp (A.e + A.e) ≤ 1.1 := by
    have := ScaleNear.exp_sub_one_le (a := A.e + A.e) (by linarith) (by linarith)
    linarith
  have u1 : Real.exp A.e ≤ 1.1 := (Real.exp_le_exp.2 (by linarith)).trans u
  have p2 := (A.rnd_near 1e-12).pos (by norm_num)
  have p3 := r1.pos (by norm_num)
  have hneg : |A.rnd (-A.rnd 1e-12) - -A.rnd 1e-12| ≤ (Real.exp A.e - 1) * A.rnd 1e-12 := by
    have := (A.rnd_near (-A.rnd 1e-12)).sub_le
    rwa [abs_neg, abs_of_pos p2, mul_comm] at this
  have d : |A.fitFloorSigned x' - x'| ≤ 2e-12 := by
    unfold ShearFmt.fitFloorSigned
    split_ifs with h1
    · have h2 := abs_lt.1 h1
      rcases lt_trichotomy x' 0 with h3 | h3 | h3
      · rw [sign_neg h3]
        simp only [SignType.coe_neg_one, Fmt.mul, mul_neg, mul_one]
        have h4 := abs_le.1 hneg
        have h5 : (Real.exp A.e - 1) * A.rnd 1e-12 ≤ 0.1 * A.rnd 1e-12 := mul_le_mul_of_nonneg_right (by linarith) p2.le
        rw [abs_le]; constructor <;> linarith [h4.1, h4.2, h2.1, r2.2]
      · rw [h3]
        simp only [sign_zero, SignType.coe_zero, Fmt.mul, mul_zero, sub_zero]
        have := (A.rnd_near 0).sub_le
        simp only [abs_zero, zero_mul, sub_zero] at this
        linarith
      · rw [sign_pos h3]
        simp only [SignType.coe_one, Fmt.mul, mul_one]
        rw [abs_le]; constructor <;> linarith [h2.1, h2.2, r2.2, r3.2]
    · rw [sub_self, abs_zero]; norm_num
  have hx := h.2.1
  refine ⟨A.fitFloorSigned x' - (x' - x), ?_, h.1, ?_, ?_⟩
  · have : A.fitFloorSigned x' - (x' - x) - y = (A.fitFloorSigned x' - x') - (y - x) := by ring
    rw [this]
    exact (abs_sub _ _).trans (by linarith)
  · have : A.fitFloorSigned x' - (x' - x) = x + (A.fitFloorSigned x' - x') := by ring
    rw [this]
    exact (abs_add_le _ _).trans (add_le_add hx d)
  · rw [sub_sub_cancel]
    refine h.2.2.trans (mul_le_mul_of_nonneg_left (by linarith) (ScaleNear.exp_sub_one_nonneg h.1))

theorem trapz_const_le {g : List ℝ} (hg : g.Pairwise (· ≤ ·)) {c r : ℝ} (hc : 0 ≤ c) (hr : ∀ x ∈ g, |x| ≤ r) :
    trapz g (g.map fun _ => c) ≤ c * (2 * r) ∨ g = [] := by
  have key : ∀ (x : ℝ) (t : List ℝ), (x :: t).Pairwise (· ≤ ·) → (∀ y ∈ x :: t, y ≤ r) →
      trapz (x :: t) ((x :: t).map fun _ => c) ≤ c * (r - x) := by
    intro x t
    induction t generalizing x with
    | nil =>
      intro _ h
      have := h x (by simp)
      simp only [List.map_cons, List.map_nil, trapz]
      exact mul_nonneg hc (by linarith)
    | cons y t ih =>
      intro hp h
      have i := ih y (List.pairwise_cons.1 hp).2 fun z hz => h z (List.mem_cons_of_mem _ hz)
      simp only [List.map_cons, trapz, smul_eq_mul] at i ⊢
      linarith
  cases g with
  | nil => exact Or.inr rfl
  | cons x t =>
    refine Or.inl ((key x t hg fun y hy => (abs_le.1 (hr y hy)).2).trans (mul_le_mul_of_nonneg_left ?_ hc))
    have := (abs_le.1 (hr x (by simp))).1
    linarith

/-- The integral of a constant over a grid inside `[-r, r]`. -/
theorem quad23_const_le {g : List ℝ} (hg : g.Pairwise (· ≤ ·)) {c r : ℝ} (hc : 0 ≤ c) (hr : ∀ x ∈ g, |x| ≤ r) :
    quad23 g g (fun _ _ => c) ≤ c * (2 * r) ^ 2 := by
  rcases eq_or_ne g [] with h | h
  · rw [h]
    simp only [quad23, List.map_nil, trapz]
    positivity
  · have h1 := (trapz_const_le hg hc hr).resolve_right h
    have c1 : 0 ≤ trapz g (g.map fun _ => c) := trapz_nonneg hg fun _ _ => hc
    have h2 := (trapz_const_le hg c1 hr).resolve_right h
    obtain ⟨x, hx⟩ := List.exists_mem_of_ne_nil g h
    have r0 : 0 ≤ r := (abs_nonneg _).trans (hr x hx)
    unfold quad23
    refine h2.trans ?_
    have := mul_le_mul_of_nonneg_right h1 (show 0 ≤ 2 * r by positivity)
    nlinarith

/-- The components before the floor, with the errors and scales expressed in the bounds `B` and `R`. -/
theorem fitRaw_point (A : ShearFmt) (p : OPSParams) {k1 R B : ℝ} (hk : 0 < k1) (B0 : 0 ≤ B) (k2 k3 : ℝ) {b : ℝ} (hL : |p.logL| ≤ R)
    (g1 : |(eddyLifetime p.hyp p.ty p.L p.T ⟨k1, k2, k3⟩).toReal| ≤ B)
    (g2 : LogNear ((7 + R) * A.e) (eddyLifetime p.hyp p.ty p.L p.T ⟨k1, k2, k3⟩).toReal b)
    (g3 : |Real.log (p.L * Real.sqrt (k1 ^ 2 + k2 ^ 2 + (k3 + (eddyLifetime p.hyp p.ty p.L p.T ⟨k1, k2, k3⟩).toReal * k1) ^ 2))| ≤ R)
    (hK : 416 * ((1 + B) ^ 2 * (9 + R)) * A.e ≤ 1) (i : Fin 6) :
    0 ≤ fitTrace p k1 k2 k3 ∧ ScaleNear (((4 * spectrumGain p.sp + 938) * ((1 + B) ^ 2 * (9 + R))) * A.e)
      (512 * (1 + B) ^ 4 * fitTrace p k1 k2 k3) (fitSix p k1 k2 k3 i)
      (A.fitRaw p.sp (A.expF p.logL) (A.expF p.logM) b ⟨k1, k2, k3⟩ i) := by
  have e0 := A.e_nonneg
  have R0 := (abs_nonneg _).trans hL
  obtain ⟨Q, hQ⟩ : ∃ Q, Q = (1 + B) ^ 2 * (9 + R) := ⟨_, rfl⟩
  rw [← hQ] at hK ⊢
  have B1 : 1 ≤ (1 + B) ^ 2 := one_le_pow₀ (by linarith)
  have Q9 : 9 + R ≤ Q := by rw [hQ]; exact le_mul_of_one_le_left (by linarith) B1
  have QK : (8 + R) * (1 + 3 * B) ≤ 9 / 8 * Q := by
    have h1 : 1 + 3 * B ≤ 9 / 8 * (1 + B) ^ 2 := by linarith [mul_self_nonneg (1 - 3 * B)]
    have h2 := mul_le_mul (show 8 + R ≤ 9 + R by linarith) h1 (by linarith) (by linarith)
    rw [hQ]; linarith
  have Q0 : 0 ≤ Q := by linarith
  have G0 : 0 ≤ spectrumGain p.sp := by unfold spectrumGain; split <;> positivity
  have Qe : 9 * A.e ≤ Q * A.e := mul_le_mul_of_nonneg_right (by linarith) e0
  have GQ : 0 ≤ spectrumGain p.sp * Q * A.e := by positivity
  have e1 : ∀ β : ℝ, k1 ^ 2 + k2 ^ 2 + (k3 + β * k1) ^ 2 = kk0R ⟨k1, k2, k3⟩ β := fun β => by unfold kk0R k30R; ring
  rw [e1] at g3
  have hE := fitEnergy_near A p ⟨k1, k2, k3⟩ hk.ne' g2 g1 hL g3 (by
    have := mul_le_mul_of_nonneg_right QK e0
    have := mul_nonneg Q0 e0
    linarith)
  obtain ⟨β, hβ⟩ : ∃ β, β = (eddyLifetime p.hyp p.ty p.L p.T ⟨k1, k2, k3⟩).toReal := ⟨_, rfl⟩
  rw [← hβ] at g1
  have b0 := abs_nonneg β
  have bb : (1 + |β|) ^ 2 ≤ (1 + B) ^ 2 := pow_le_pow_left₀ (by linarith) (by linarith) 2
  have b4 : (1 + |β|) ^ 4 ≤ (1 + B) ^ 4 := pow_le_pow_left₀ (by linarith) (by linarith) 4
  have hs : (1 + |β|) * (2 * (1 + |β|) * ((7 + R) * A.e + 2 * A.e)) ≤ 2 * (Q * A.e) := by
    have h1 := mul_le_mul_of_nonneg_right bb (show 0 ≤ (9 + R) * A.e by positivity)
    rw [hQ]
    linarith
  have H : ShearSetting A ⟨k1, k2, k3⟩ ⟨k1, k2, k3⟩ β b ((7 + R) * A.e) 0 A.e (2 * (1 + |β|) * ((7 + R) * A.e + 2 * A.e)) :=
    ⟨by rw [hβ]; exact g2, LogNear.refl _, LogNear.refl _, LogNear.refl _, by linarith, rfl, by linarith⟩
  rw [hβ] at H
  have h4 := fitRaw_near A p hk.ne' k2 k3 H hE i
  rw [← hβ] at h4
  have t0 : 0 ≤ fitTrace p k1 k2 k3 := by
    have := h4.scale_nonneg
    by_contra hn
    have : 512 * (1 + |β|) ^ 4 * fitTrace p k1 k2 k3 < 0 := mul_neg_of_pos_of_neg (by positivity) (not_le.1 hn)
    linarith
  refine ⟨t0, h4.mono ?_ (mul_le_mul_of_nonneg_right (mul_le_mul_of_nonneg_left b4 (by norm_num)) t0)⟩
  have m1 := mul_le_mul_of_nonneg_right QK e0
  have m2 := mul_le_mul_of_nonneg_left m1 G0
  have m3 := mul_le_mul_of_nonneg_right Q9 e0
  linarith

/-- **C144** All six spectra in rounded arithmetic.  Let the grid be increasing and inside `[-r, r]`, `k1 > 0`, the logarithms of the
length scale and of the scaled distorted wavenumbers be at most `R`, the lifetimes at most `B` and computed with at most `7 + R`
units of error, and the unit small compared with `1 / ((1+B)^2 (9+R))`.  Whatever the order in which torch adds (nested at most `d`
deep), each returned spectrum differs from the exact one by at most `513 (1+B)^4 (exp (((4 G + 940)(1+B)^2 (9+R) + 2 d) e) - 1)`
times the sum of the three exact auto spectra; for `uw` the jumps of the signed floor add at most `12e-12 k1 r^2`. -/
theorem C144_spectra (A : ShearFmt) (s : OPS) (hfin : s.params.LifetimeFinite) (hg : s.grid.Pairwise (· < ·)) {k1 R B r : ℝ}
    (hk : 0 < k1) (hr : ∀ x ∈ s.grid, |x| ≤ r) (B0 : 0 ≤ B) (b : K3 → ℝ) (hL : |s.logL| ≤ R)
    (hpt : ∀ k2 ∈ s.grid, ∀ k3 ∈ s.grid,
      let β := (eddyLifetime s.hyp s.params.ty (Real.exp s.logL) (Real.exp s.logT) ⟨k1, k2, k3⟩).toReal
      |β| ≤ B ∧ LogNear ((7 + R) * A.e) β (b ⟨k1, k2, k3⟩) ∧
      |Real.log (Real.exp s.logL * Real.sqrt (k1 ^ 2 + k2 ^ 2 + (k3 + β * k1) ^ 2))| ≤ R)
    (hK : 416 * ((1 + B) ^ 2 * (9 + R)) * A.e ≤ 1) {v : Fin 6 → ℝ} {d : ℕ} (hv : A.SpectraOf s.sp s.logL s.logM b s.grid k1 v d) :
    ∃ uu vv ww uw vw uv : ℝ, (OPS.forward [k1] s).1 = .ok [[fin uu], [fin vv], [fin ww], [fin uw], [fin vw], [fin uv]] ∧
      let err := 513 * (1 + B) ^ 4 * (Real.exp (((4 * spectrumGain s.sp + 940) * ((1 + B) ^ 2 * (9 + R)) + 2 * d) * A.e) - 1) *
        (uu + vv + ww)
      |v 0 - uu| ≤ err ∧ |v 1 - vv| ≤ err ∧ |v 2 - ww| ≤ err ∧ |v 3 - uw| ≤ err + 12e-12 * k1 * r ^ 2 ∧ |v 4 - vw| ≤ err ∧
      |v 5 - uv| ≤ err := by
  choose y hy hphi using fun k2 k3 => opsPhi_spec s.params hfin hk.ne' k2 k3
  obtain ⟨f, hf⟩ : ∃ f : Fin 6 → ℝ → ℝ → ℝ, f = fun i k2 k3 => max (fitSix s.params k1 k2 k3 i) 1e-12 := ⟨_, rfl⟩
  refine ⟨k1 * quad23 s.grid s.grid (f 0), k1 * quad23 s.grid s.grid (f 1), k1 * quad23 s.grid s.grid (f 2),
    k1 * quad23 s.grid s.grid y, k1 * quad23 s.grid s.grid (f 4), k1 * quad23 s.grid s.grid (f 5), ?_, ?_⟩
  · rw [forward_eq]
    simp only [phiSelectors, List.map_cons, List.map_nil, hphi]
    have q : ∀ f : ℝ → ℝ → ℝ, quad23 s.grid s.grid (fun k2 k3 => fin (f k2 k3)) = fin (quad23 s.grid s.grid f) := fun f =>
      quad23_fin fun _ _ _ _ => rfl
    rw [q, q, q, q, q, q]
    simp only [fin_mul_fin, hf]
    rfl
  have hgl : s.grid.Pairwise (· ≤ ·) := hg.imp le_of_lt
  have e0 := A.e_nonneg
  have R0 := (abs_nonneg _).trans hL
  obtain ⟨Q, hQ⟩ : ∃ Q, Q = (1 + B) ^ 2 * (9 + R) := ⟨_, rfl⟩
  rw [← hQ] at hK ⊢
  have B1 : 1 ≤ (1 + B) ^ 2 := one_le_pow₀ (by linarith)
  have B4 : 1 ≤ (1 + B) ^ 4 := one_le_pow₀ (by linarith)
  have Q9 : 9 + R ≤ Q := by rw [hQ]; exact le_mul_of_one_le_left (by linarith) B1
  have QK : (8 + R) * (1 + 3 * B) ≤ 9 / 8 * Q := by
    have h1 : 1 + 3 * B ≤ 9 / 8 * (1 + B) ^ 2 := by linarith [mul_self_nonneg (1 - 3 * B)]
    have h2 := mul_le_mul (show 8 + R ≤ 9 + R by linarith) h1 (by linarith) (by linarith)
    rw [hQ]; linarith
  have Q0 : 0 ≤ Q := by linarith
  have G0 : 0 ≤ spectrumGain s.sp := by unfold spectrumGain; split <;> positivity
  have Qe : 9 * A.e ≤ Q * A.e := mul_le_mul_of_nonneg_right (by linarith) e0
  have he : A.e ≤ 1 / 100 := by linarith
  obtain ⟨a, ha⟩ : ∃ a, a = ((4 * spectrumGain s.sp + 938) * Q) * A.e := ⟨_, rfl⟩
  have GQ : 0 ≤ spectrumGain s.sp * Q * A.e := by positivity
  have a0 : 0 ≤ a := by rw [ha]; positivity
  have ae : A.e ≤ a := by rw [ha]; linarith
  obtain ⟨tr, htr⟩ : ∃ tr : ℝ → ℝ → ℝ, tr = fun k2 k3 => f 0 k2 k3 + f 1 k2 k3 + f 2 k2 k3 := ⟨_, rfl⟩
  -- raw components
  have raw : ∀ k2 ∈ s.grid, ∀ k3 ∈ s.grid, ∀ i, ScaleNear a (512 * (1 + B) ^ 4 * tr k2 k3) (fitSix s.params k1 k2 k3 i)
      (A.fitRaw s.sp (A.expF s.logL) (A.expF s.logM) (b ⟨k1, k2, k3⟩) ⟨k1, k2, k3⟩ i) := by
    intro k2 h2 k3 h3 i
    obtain ⟨g1, g2, g3⟩ := hpt k2 h2 k3 h3
    obtain ⟨t0, h4⟩ := fitRaw_point A s.params hk B0 k2 k3 hL g1 g2 g3 (by rw [← hQ]; exact hK) i
    rw [← hQ] at h4
    refine h4.mono (by rw [ha]; exact le_rfl) (mul_le_mul_of_nonneg_left ?_ (by positivity))
    rw [htr, hf]
    exact add_le_add (add_le_add (le_max_left _ _) (le_max_left _ _)) (le_max_left _ _)
  have trl : ∀ k2 k3, 3e-12 ≤ tr k2 k3 := by
    intro k2 k3
    have h1 : ∀ i, 1e-12 ≤ f i k2 k3 := fun i => by rw [hf]; exact le_max_right _ _
    rw [htr]
    have := h1 0
    have := h1 1
    have := h1 2
    change 3e-12 ≤ f 0 k2 k3 + f 1 k2 k3 + f 2 k2 k3
    linarith
  have sc : ∀ k2 k3, 512 * (1 + B) ^ 4 * tr k2 k3 + 2e-12 ≤ 513 * (1 + B) ^ 4 * tr k2 k3 := by
    intro k2 k3
    have h1 := trl k2 k3
    have h2 := mul_le_mul_of_nonneg_right B4 (show 0 ≤ tr k2 k3 by linarith)
    linarith
  have etr : quad23 s.grid s.grid (fun k2 k3 => 513 * (1 + B) ^ 4 * tr k2 k3) =
      513 * (1 + B) ^ 4 * (quad23 s.grid s.grid (f 0) + quad23 s.grid s.grid (f 1) + quad23 s.grid s.grid (f 2)) := by
    rw [htr, ← quad23_add, ← quad23_add, ← quad23_smul]
  -- integral and factor
  have fin0 : ∀ {φ φ' : ℝ → ℝ → ℝ} {q : ℝ}, (∀ x ∈ s.grid, ∀ y ∈ s.grid, ScaleNear a (513 * (1 + B) ^ 4 * tr x y) (φ x y) (φ' x y)) →
      A.Quad23Of s.grid s.grid φ' q d → |A.mul k1 q - k1 * quad23 s.grid s.grid φ| ≤
        513 * (1 + B) ^ 4 * (Real.exp (((4 * spectrumGain s.sp + 940) * Q + 2 * d) * A.e) - 1) *
          (k1 * quad23 s.grid s.grid (f 0) + k1 * quad23 s.grid s.grid (f 1) + k1 * quad23 s.grid s.grid (f 2)) := by
    intro φ φ' q h hq
    have h1 := quad23Of_scale (A := A.toFmt) hgl a0 h hq
    have h2 := (((ShearSetting.self_scale (le_refl |k1|)).mul h1).rnd A.toFmt).mono
      (b := ((4 * spectrumGain s.sp + 940) * Q + 2 * d) * A.e) (by rw [ha]; linarith) le_rfl
    rw [etr, abs_of_pos hk] at h2
    refine h2.2.2.trans (le_of_eq ?_)
    ring
  have fl : ∀ i : Fin 6, i ≠ 3 → |v i - k1 * quad23 s.grid s.grid (f i)| ≤
      513 * (1 + B) ^ 4 * (Real.exp (((4 * spectrumGain s.sp + 940) * Q + 2 * d) * A.e) - 1) *
        (k1 * quad23 s.grid s.grid (f 0) + k1 * quad23 s.grid s.grid (f 1) + k1 * quad23 s.grid s.grid (f 2)) := by
    intro i hi
    obtain ⟨q, hq, e⟩ := hv i
    rw [e]
    refine fin0 (fun k2 h2 k3 h3 => ?_) hq
    have h5 := (fitFloor_near A (raw k2 h2 k3 h3 i) ae).mono le_rfl (show _ ≤ 513 * (1 + B) ^ 4 * tr k2 k3 by linarith [sc k2 k3])
    rw [hf]
    have e6 : A.fitPhi s.sp (A.expF s.logL) (A.expF s.logM) (b ⟨k1, k2, k3⟩) ⟨k1, k2, k3⟩ i =
        A.fitFloor (A.fitRaw s.sp (A.expF s.logL) (A.expF s.logM) (b ⟨k1, k2, k3⟩) ⟨k1, k2, k3⟩ i) := by
      fin_cases i <;> first | rfl | exact absurd rfl hi
    rw [e6]
    exact h5
  refine ⟨fl 0 (by decide), fl 1 (by decide), fl 2 (by decide), ?_, fl 4 (by decide), fl 5 (by decide)⟩
  obtain ⟨q, hq, e⟩ := hv 3
  rw [e]
  have hz : ∀ k2 k3, ∃ z, (k2 ∈ s.grid ∧ k3 ∈ s.grid) → |z - y k2 k3| ≤ 3e-12 ∧ ScaleNear a (513 * (1 + B) ^ 4 * tr k2 k3) z
      (A.fitPhi s.sp (A.expF s.logL) (A.expF s.logM) (b ⟨k1, k2, k3⟩) ⟨k1, k2, k3⟩ 3) := by
    intro k2 k3
    by_cases hm : k2 ∈ s.grid ∧ k3 ∈ s.grid
    · obtain ⟨z, h1, h2⟩ := fitFloorSigned_near A he (raw k2 hm.1 k3 hm.2 3) (hy k2 k3)
      exact ⟨z, fun _ => ⟨h1, h2.mono le_rfl (sc k2 k3)⟩⟩
    · exact ⟨0, fun h => absurd h hm⟩
  choose z hz using hz
  have h1 := fin0 (fun k2 h2 k3 h3 => (hz k2 k3 ⟨h2, h3⟩).2) hq
  have h2 : |quad23 s.grid s.grid z - quad23 s.grid s.grid y| ≤ 3e-12 * (2 * r) ^ 2 := by
    rw [← quad23_sub]
    exact (quad23_norm_le (f := fun k2 k3 => z k2 k3 - y k2 k3) (b := fun _ _ => 3e-12) hgl hgl
      fun k2 h2 k3 h3 => (hz k2 k3 ⟨h2, h3⟩).1).trans (quad23_const_le hgl (by norm_num) hr)
  have h3 : |k1 * quad23 s.grid s.grid z - k1 * quad23 s.grid s.grid y| ≤ 12e-12 * k1 * r ^ 2 := by
    rw [← mul_sub, abs_mul, abs_of_pos hk]
    refine (mul_le_mul_of_nonneg_left h2 hk.le).trans (le_of_eq (by ring))
  exact (abs_sub_le _ _ _).trans (add_le_add h1 h3)

/-- **C144** The lifetimes of types MANN and MANN_APPROX meet the hypothesis of `C144_spectra`: they are computed with at most
`12 + W + R` and `3 + |c| (6 + 7 R) + 2 |i|` units of error, if scipy computes the hypergeometric function with at most `W` units. -/
theorem C144_lifetimes (A : ShearFmt) (he : A.e ≤ 1 / 100) {hyp hypF : ℝ → ℝ} (hy : IsMannHyp hyp) {W : ℝ}
    (hw : ∀ z < 0, LogNear (W * A.e) (hyp z) (hypF z)) (logL logT c i : ℝ) {R : ℝ} {k : K3} (hk : k.k1 ≠ 0)
    (hR : |Real.log (Real.exp logL * Real.sqrt (k.k1 ^ 2 + k.k2 ^ 2 + k.k3 ^ 2))| ≤ R) :
    LogNear ((12 + W + R) * A.e) (eddyLifetime hyp .mann (Real.exp logL) (Real.exp logT) k).toReal
      (A.fitMann hypF (A.expF logL) (A.expF logT) k) ∧
    LogNear ((3 + |c| * (6 + 7 * R) + 2 * |i|) * A.e) (eddyLifetime hyp (.mannApprox c i) (Real.exp logL) (Real.exp logT) k).toReal
      (A.fitApprox c i (A.expF logL) (A.expF logT) k) := by
  have e0 := A.e_nonneg
  have R0 := (abs_nonneg _).trans hR
  have hkk := kkR_pos (k := k) hk
  have hp : 0 < Real.exp logL * Real.sqrt (kkR k) := mul_pos (Real.exp_pos _) (Real.sqrt_pos.2 hkk)
  have e2 : k.k1 ^ 2 + k.k2 ^ 2 + k.k3 ^ 2 = kkR k := by unfold kkR; ring
  rw [e2] at hR
  have hT := A.exp_near logT
  have h1 := A.mul_near (A.exp_near logL) (norm3_near A.toFmt k.k1 k.k2 k.k3)
  change LogNear (A.e + 5 / 2 * A.e + A.e) (Real.exp logL * Real.sqrt (kkR k)) _ at h1
  obtain ⟨x, hx⟩ : ∃ x, x = Real.exp logL * Real.sqrt (kkR k) := ⟨_, rfl⟩
  obtain ⟨x', hx'⟩ : ∃ x', x' = A.mul (A.expF logL) (A.norm3 k.k1 k.k2 k.k3) := ⟨_, rfl⟩
  rw [← hx, ← hx'] at h1
  rw [← hx] at hR hp
  constructor
  · have pp := hy.mann_hyp_pos (z := -x ^ (-2 : ℝ)) (by have := Real.rpow_pos_of_pos hp (-2); linarith)
    have e1 : (eddyLifetime hyp .mann (Real.exp logL) (Real.exp logT) k).toReal =
        Real.exp logT * (x ^ (-2 / 3 : ℝ) / Real.sqrt (hyp (-x ^ (-2 : ℝ)))) := by
      unfold eddyLifetime
      simp only [vecNorm_kkR, fin_mul_fin, ← hx, mannTau_eq hy hp, Fl.toReal]
      rfl
    rw [e1]
    unfold ShearFmt.fitMann
    simp only [← hx']
    have h2 := A.powLit_near h1 hp hR (-2 / 3)
    have h3 := A.powGiven_near h1 hp (-2)
    have h4 := mann_hyp_near hy h3 (Real.rpow_pos_of_pos hp _)
    have h5 := h4.trans (hw _ (by have := h3.pos (Real.rpow_pos_of_pos hp _); linarith))
    have h6 := A.mul_near hT (A.div_near h2 (A.sqrt_near h5))
    refine h6.mono ?_
    rw [abs_of_neg (by norm_num), abs_of_neg (by norm_num)]
    have w0 : 0 ≤ W * A.e := (hw (-1) (by norm_num)).nonneg
    have : A.e * A.e ≤ 1 / 100 * A.e := mul_le_mul_of_nonneg_right he e0
    have := mul_nonneg e0 R0
    nlinarith
  · have e1 : (eddyLifetime hyp (.mannApprox c i) (Real.exp logL) (Real.exp logT) k).toReal =
        Real.exp logT * Real.exp (c * Real.log x + i) := by
      unfold eddyLifetime Mann_linear_exponential_approx
      simp only [vecNorm_kkR, fin_mul_fin, ← hx, log_fin hp, fin_add_fin, exp_fin, Fl.toReal]
    rw [e1]
    unfold ShearFmt.fitApprox
    rw [← hx']
    obtain ⟨ℓ, hℓ⟩ : ∃ ℓ, ℓ = Real.log x := ⟨_, rfl⟩
    rw [← hℓ] at hR ⊢
    have g1 := h1.abs_log hp
    rw [← hℓ] at g1
    have ee : Real.exp A.e - 1 ≤ 2 * A.e := ScaleNear.exp_sub_one_le e0 (by linarith)
    have rel : ∀ {y z : ℝ}, LogNear A.e y z → |z - y| ≤ 2 * A.e * |y| := by
      intro y z h
      exact h.sub_le.trans ((mul_le_mul_of_nonneg_left ee (abs_nonneg y)).trans (le_of_eq (by ring)))
    have bd : ∀ {y y' d S : ℝ}, |y' - y| ≤ d → |y| ≤ S → |A.rnd y' - y| ≤ d + 2 * A.e * (S + d) := by
      intro y y' d S h hS
      have r1 := rel (A.rnd_near y')
      have r2 : |y'| ≤ S + d := by
        have := abs_add_le y (y' - y)
        rw [add_sub_cancel] at this
        linarith
      have r3 := mul_le_mul_of_nonneg_left r2 (show 0 ≤ 2 * A.e by linarith)
      have r4 : |A.rnd y' - y| ≤ |A.rnd y' - y'| + |y' - y| := abs_sub_le _ _ _
      linarith
    have c0 := abs_nonneg c
    have i0 := abs_nonneg i
    have s2 : A.e * A.e ≤ 1 / 100 * A.e := mul_le_mul_of_nonneg_right he e0
    -- logarithm
    have g2 : |A.logF x' - ℓ| ≤ (4.6 + 2 * R) * A.e := by
      have r1 := rel (A.log_near x')
      have r2 : |Real.log x'| ≤ R + 4.5 * A.e := by
        have := abs_add_le ℓ (Real.log x' - ℓ)
        rw [add_sub_cancel] at this
        linarith
      have r3 := mul_le_mul_of_nonneg_left r2 (show 0 ≤ 2 * A.e by linarith)
      have r4 : |A.logF x' - ℓ| ≤ |A.logF x' - Real.log x'| + |Real.log x' - ℓ| := abs_sub_le _ _ _
      linarith
    -- product
    have g3 : |A.mul c (A.logF x') - c * ℓ| ≤ |c| * ((5 + 4.1 * R) * A.e) := by
      have r0 : |c * A.logF x' - c * ℓ| ≤ |c| * ((4.6 + 2 * R) * A.e) := by
        rw [← mul_sub, abs_mul]; exact mul_le_mul_of_nonneg_left g2 c0
      have r1 := bd r0 (show |c * ℓ| ≤ |c| * R by rw [abs_mul]; exact mul_le_mul_of_nonneg_left hR c0)
      refine r1.trans ?_
      have r2 : |c| * ((4.6 + 2 * R) * A.e) + 2 * A.e * (|c| * R + |c| * ((4.6 + 2 * R) * A.e)) =
        |c| * ((4.6 + 4 * R) * A.e + 2 * (4.6 + 2 * R) * (A.e * A.e)) := by ring
      rw [r2]
      refine mul_le_mul_of_nonneg_left ?_ c0
      have := mul_le_mul_of_nonneg_left s2 (show 0 ≤ 2 * (4.6 + 2 * R) by positivity)
      have := mul_nonneg R0 e0
      linarith
    -- sum
    have g4 : |A.add (A.mul c (A.logF x')) i - (c * ℓ + i)| ≤ (|c| * (6 + 7 * R) + 2 * |i|) * A.e := by
      have r0 : |A.mul c (A.logF x') + i - (c * ℓ + i)| ≤ |c| * ((5 + 4.1 * R) * A.e) := by rwa [add_sub_add_right_eq_sub]
      have r1 := bd r0 (show |c * ℓ + i| ≤ |c| * R + |i| from (abs_add_le _ _).trans (by
        rw [abs_mul]; exact add_le_add_left (mul_le_mul_of_nonneg_left hR c0) _))
      refine r1.trans ?_
      have r2 : |c| * ((5 + 4.1 * R) * A.e) + 2 * A.e * (|c| * R + |i| + |c| * ((5 + 4.1 * R) * A.e)) =
        |c| * ((5 + 6.1 * R) * A.e + 2 * (5 + 4.1 * R) * (A.e * A.e)) + 2 * |i| * A.e := by ring
      rw [r2, show (|c| * (6 + 7 * R) + 2 * |i|) * A.e = |c| * ((6 + 7 * R) * A.e) + 2 * |i| * A.e by ring]
      refine add_le_add_left (mul_le_mul_of_nonneg_left ?_ c0) _
      have := mul_le_mul_of_nonneg_left s2 (show 0 ≤ 2 * (5 + 4.1 * R) by positivity)
      have := mul_nonneg R0 e0
      linarith
    have g5 : LogNear ((|c| * (6 + 7 * R) + 2 * |i|) * A.e) (Real.exp (c * ℓ + i)) (Real.exp (A.add (A.mul c (A.logF x')) i)) :=
      ⟨_, g4, by rw [← Real.exp_add]; congr 1; ring⟩
    exact (A.mul_near hT (g5.trans (A.exp_near _))).mono (le_of_eq (by ring))

/-- Component 13 of the exact model. -/
theorem opsPhi_p13 (p : OPSParams) (hp : p.LifetimeFinite) {k1 : ℝ} (hk : k1 ≠ 0) (k2 k3 : ℝ) :
    (opsPhi p ⟨k1, k2, k3⟩).p13 = floorEpsSigned 1e-12 (fin (fitTensor p k1 k2 k3 0 2)) := by
  obtain ⟨b, hb⟩ := hp ⟨k1, k2, k3⟩ hk
  have h4 : (4 * Real.pi) ≠ 0 := by positivity
  unfold opsPhi
  simp only [hb, energyE0_spec p.L_pos (kk0R_pos (k := ⟨k1, k2, k3⟩) (b := b) hk), fin_div_fin _ h4]
  rw [phiRaw_sheared (k := ⟨k1, k2, k3⟩) hk]
  have e : shearedTensor (energyOf p.L p.M p.sp) (K3.vec ⟨k1, k2, k3⟩) b 0 2 = fitTensor p k1 k2 k3 0 2 := by
    unfold fitTensor
    rw [hb, toReal_fin]; rfl
  simp only [e, phiFloor]

theorem exactS_e : ShearFmt.exact.e = 0 := by simp [Fmt.e, ShearFmt.exact, Fmt.exact]

theorem exact_floorSigned (x : ℝ) : floorEpsSigned 1e-12 (fin x) = fin (ShearFmt.exact.fitFloorSigned x) := by
  have r : ∀ z, ShearFmt.exact.rnd z = z := fun _ => rfl
  unfold floorEpsSigned ShearFmt.fitFloorSigned
  simp only [Fmt.mul, r, abs_fin, lt_fin]
  by_cases h : |x| < 1e-12
  · rw [if_pos h, if_pos h]
    rcases lt_trichotomy x 0 with h1 | h1 | h1
    · simp [Fl.sign, h1, not_lt.2 h1.le, sign_neg h1]
    · simp [Fl.sign, h1]
    · simp [Fl.sign, h1, sign_pos h1]
  · rw [if_neg h, if_neg h]

theorem ScaleNear.eq_of_zero {S x y : ℝ} (h : ScaleNear 0 S x y) : y = x := by
  have := h.2.2
  rw [Real.exp_zero, sub_self, zero_mul] at this
  exact sub_eq_zero.1 (abs_eq_zero.1 (le_antisymm this (abs_nonneg _)))

/-- **C144** In exact arithmetic the rounded model is the model: the values are those that `forward` returns. -/
theorem C144_exact (s : OPS) (hfin : s.params.LifetimeFinite) (hg : s.grid.Pairwise (· < ·)) {k1 : ℝ} (hk : 0 < k1)
    {v : Fin 6 → ℝ} {d : ℕ} (hv : ShearFmt.exact.SpectraOf s.sp s.logL s.logM
      (fun k => (eddyLifetime s.hyp s.params.ty (Real.exp s.logL) (Real.exp s.logT) k).toReal) s.grid k1 v d) :
    (OPS.forward [k1] s).1 = .ok [[fin (v 0)], [fin (v 1)], [fin (v 2)], [fin (v 3)], [fin (v 4)], [fin (v 5)]] := by
  have e0 : ShearFmt.exact.toFmt.e = 0 := exactS_e
  have hgl : s.grid.Pairwise (· ≤ ·) := hg.imp le_of_lt
  obtain ⟨β, hβ⟩ : ∃ β : K3 → ℝ, β = fun k => (eddyLifetime s.hyp s.params.ty (Real.exp s.logL) (Real.exp s.logT) k).toReal := ⟨_, rfl⟩
  rw [← hβ] at hv
  have raw : ∀ k2 k3 i, ShearFmt.exact.fitRaw s.sp (ShearFmt.exact.expF s.logL) (ShearFmt.exact.expF s.logM) (β ⟨k1, k2, k3⟩)
      ⟨k1, k2, k3⟩ i = fitSix s.params k1 k2 k3 i := by
    intro k2 k3 i
    have n0 : LogNear 0 (β ⟨k1, k2, k3⟩) (β ⟨k1, k2, k3⟩) := LogNear.refl _
    have H : ShearSetting ShearFmt.exact ⟨k1, k2, k3⟩ ⟨k1, k2, k3⟩ (β ⟨k1, k2, k3⟩) (β ⟨k1, k2, k3⟩) 0 0 ShearFmt.exact.e 0 :=
      ⟨n0, LogNear.refl _, LogNear.refl _, LogNear.refl _, by linarith, by rw [e0]; ring, by simp⟩
    have hE := fitEnergy_near ShearFmt.exact s.params ⟨k1, k2, k3⟩ (β := β ⟨k1, k2, k3⟩) (b := β ⟨k1, k2, k3⟩) hk.ne'
      (R := max |s.params.logL| |Real.log (s.params.L * Real.sqrt (kk0R ⟨k1, k2, k3⟩ (β ⟨k1, k2, k3⟩)))|)
      (B := |β ⟨k1, k2, k3⟩|) (by rw [e0, mul_zero]; exact n0) le_rfl (le_max_left _ _) (le_max_right _ _) (by rw [e0]; simp)
    rw [e0, mul_zero] at hE
    have hb : β ⟨k1, k2, k3⟩ = (eddyLifetime s.params.hyp s.params.ty s.params.L s.params.T ⟨k1, k2, k3⟩).toReal := by rw [hβ]; rfl
    rw [hb] at H hE ⊢
    have h := fitRaw_near ShearFmt.exact s.params hk.ne' k2 k3 H hE i
    rw [mul_zero, mul_zero, add_zero] at h
    exact h.eq_of_zero
  have hq : ∀ i, v i = k1 * quad23 s.grid s.grid fun k2 k3 =>
      ShearFmt.exact.fitPhi s.sp (ShearFmt.exact.expF s.logL) (ShearFmt.exact.expF s.logM) (β ⟨k1, k2, k3⟩) ⟨k1, k2, k3⟩ i := by
    intro i
    obtain ⟨q, h1, h2⟩ := hv i
    have h3 := quad23Of_scale (A := ShearFmt.exact.toFmt) (a := 0) hgl le_rfl
      (fun k2 _ k3 _ => ShearSetting.self_scale (le_refl |ShearFmt.exact.fitPhi s.sp (ShearFmt.exact.expF s.logL)
        (ShearFmt.exact.expF s.logM) (β ⟨k1, k2, k3⟩) ⟨k1, k2, k3⟩ i|)) h1
    rw [e0, mul_zero, add_zero] at h3
    rw [h2, h3.eq_of_zero]
    rfl
  have fl : ∀ x, ShearFmt.exact.fitFloor x = max x 1e-12 := fun x => ite_eq_max _ _
  choose y hy hphi using fun k2 k3 => opsPhi_spec s.params hfin hk.ne' k2 k3
  have hy3 : ∀ k2 k3, y k2 k3 = ShearFmt.exact.fitFloorSigned (fitTensor s.params k1 k2 k3 0 2) := by
    intro k2 k3
    have h1 := opsPhi_p13 s.params hfin hk.ne' k2 k3
    rw [hphi, exact_floorSigned] at h1
    exact Fl.fin.inj h1
  rw [forward_eq]
  simp only [phiSelectors, List.map_cons, List.map_nil, hphi]
  have q : ∀ f : ℝ → ℝ → ℝ, quad23 s.grid s.grid (fun k2 k3 => fin (f k2 k3)) = fin (quad23 s.grid s.grid f) := fun f =>
    quad23_fin fun _ _ _ _ => rfl
  rw [q, q, q, q, q, q]
  simp only [fin_mul_fin]
  have c0 : ∀ k2 k3 (i : Fin 6), i ≠ 3 → ShearFmt.exact.fitPhi s.sp (ShearFmt.exact.expF s.logL) (ShearFmt.exact.expF s.logM)
      (β ⟨k1, k2, k3⟩) ⟨k1, k2, k3⟩ i = max (fitSix s.params k1 k2 k3 i) 1e-12 := by
    intro k2 k3 i hi
    rw [← raw k2 k3 i, ← fl]
    fin_cases i <;> first | rfl | exact absurd rfl hi
  have c3 : ∀ k2 k3, ShearFmt.exact.fitPhi s.sp (ShearFmt.exact.expF s.logL) (ShearFmt.exact.expF s.logM)
      (β ⟨k1, k2, k3⟩) ⟨k1, k2, k3⟩ 3 = y k2 k3 := by
    intro k2 k3
    rw [hy3]
    have := raw k2 k3 3
    change _ = fitTensor s.params k1 k2 k3 0 2 at this
    rw [← this]
    rfl
  have g0 : ∀ i : Fin 6, i ≠ 3 → v i = k1 * quad23 s.grid s.grid fun k2 k3 => max (fitSix s.params k1 k2 k3 i) 1e-12 := fun i hi => by
    rw [hq]
    simp only [c0 _ _ i hi]
  have g3 : v 3 = k1 * quad23 s.grid s.grid y := by
    rw [hq]
    simp only [c3]
  rw [g0 0 (by decide), g0 1 (by decide), g0 2 (by decide), g3, g0 4 (by decide), g0 5 (by decide)]
  rfl

/-- Adding one term after another is an admissible order: there are always results, nested as deep as the grid has intervals. -/
example (A : ShearFmt) (sp : SpectrumChoice) (logL logM : ℝ) (b : K3 → ℝ) (g : List ℝ) (k1 : ℝ) :
    ∃ v, A.SpectraOf sp logL logM b g k1 v (g.length - 1) := by
  have h : ∀ f : ℝ → ℝ, ∃ t, A.TrapzOf g (g.map f) t (g.length - 1) := by
    intro f
    obtain ⟨s, hs⟩ := Summation.foldl (A := A.toFmt) (A.trapzTerms g (g.map f))
    rw [trapzTerms_length] at hs
    exact ⟨_, s, hs, rfl⟩
  choose t ht using h
  exact ⟨_, fun i => ⟨_, ⟨fun k2 => t fun k3 => A.fitPhi sp (A.expF logL) (A.expF logM) (b ⟨k1, k2, k3⟩) ⟨k1, k2, k3⟩ i,
    fun k2 _ => ht _, ht _⟩, rfl⟩⟩

/-- Double precision with library functions within four units in the last place: for lifetimes up to 4, scaled wavenumbers between
`1e-4` and `1e4` and sums nested at most 201 deep the bound of `C144_spectra` is 0.02 percent of the sum of the auto spectra. -/
example (A : ShearFmt) (hv : A.v ≤ 1 / 2 ^ 51) : (416 * ((1 + 4) ^ 2 * (9 + 10)) * A.e ≤ 1) ∧
    513 * (1 + 4) ^ 4 * (Real.exp (((4 * spectrumGain .vkLike + 940) * ((1 + 4) ^ 2 * (9 + 10)) + 2 * (201:ℕ)) * A.e) - 1) ≤ 0.0002 := by
  have h := A.e_le
  have h1 : A.v / (1 - A.v) ≤ 4.5e-16 := by
    rw [div_le_iff₀ (by linarith)]
    linarith
  have h2 : A.e ≤ 4.5e-16 := h.trans h1
  have e0 := A.e_nonneg
  refine ⟨by linarith, ?_⟩
  obtain ⟨y, hy⟩ : ∃ y, y = ((4 * spectrumGain .vkLike + 940) * ((1 + 4) ^ 2 * (9 + 10)) + 2 * (201:ℕ)) * A.e := ⟨_, rfl⟩
  rw [← hy]
  unfold spectrumGain at hy
  push_cast at hy
  have y0 : 0 ≤ y := by linarith
  have y1 : y ≤ 2.2e-10 := by linarith
  have h3 := ScaleNear.exp_sub_one_le y0 (by linarith)
  linarith

end
end Verif
