import Verif.Model.RoundedLow
import Verif.Props.RoundingField
import Verif.Props.LowFreqGenerated
import Verif.Props.LowFreqEstimate
import Verif.Props.LowFreqMoments

/-!
# C149: the low-frequency field in floating point arithmetic
-/

namespace Verif
open Fl

noncomputable section

theorem LogNear.min {a x y x' y' : ℝ} (h : LogNear a x x') (h' : LogNear a y y') (hx : 0 ≤ x) (hy : 0 ≤ y) :
    LogNear a (min x y) (min x' y') := by
  have b := h.bounds hx
  have b' := h'.bounds hy
  refine LogNear.of_bounds (le_min hx hy) h.nonneg ?_ ?_
  · rw [min_mul_of_nonneg _ _ (Real.exp_pos _).le]
    exact min_le_min b.1 b'.1
  · rw [min_mul_of_nonneg _ _ (Real.exp_pos _).le]
    exact min_le_min b.2 b'.2

theorem Fmt.pow2_near (A : Fmt) {a x x' : ℝ} (h : LogNear a x x') : LogNear (2 * a + A.e) (x ^ 2) (A.sq x') := by
  rw [pow_two]; exact A.sq_near h

theorem Fmt.cube_near (A : Fmt) {a x x' : ℝ} (h : LogNear a x x') :
    LogNear (3 * a + 2 * A.e) (x ^ 3) (A.mul x' (A.sq x')) := by
  have := A.mul_near h (A.pow2_near h)
  rw [show x ^ 3 = x * x ^ 2 by ring]
  exact this.mono (le_of_eq (by ring))

namespace LowFmt
variable (A : LowFmt)

theorem cos_near (t : ℝ) : LogNear A.e (Real.cos t) (A.cosF t) := LogNear.of_rel A.v0 A.v1 (A.cos_err t)
theorem sin_near (t : ℝ) : LogNear A.e (Real.sin t) (A.sinF t) := LogNear.of_rel A.v0 A.v1 (A.sin_err t)

theorem lowKappaSq_near (psi : ℝ) {k1 k2 k1' k2' : ℝ} (h1 : LogNear (10 * A.e) k1 k1') (h2 : LogNear (10 * A.e) k2 k2') :
    LogNear (27 * A.e) (lfKappaSq psi k1 k2) (A.lowKappaSq psi k1' k2') := by
  unfold lfKappaSq lowKappaSq
  have a1 := A.pow2_near (A.mul_near h1 (A.cos_near psi))
  have a2 := A.pow2_near (A.mul_near h2 (A.sin_near psi))
  exact (A.mul_near (LogNear.refl 2) (A.add_near a1 a2 (sq_nonneg _) (sq_nonneg _))).mono (le_of_eq (by ring))

/-- The denominator of the energy spectrum. -/
def lfDen (L2d zi kappaSq : ℝ) : ℝ := (1 / L2d ^ 2 + kappaSq) ^ (7 / 3 : ℝ) * (1 + kappaSq * zi ^ 2)

theorem lowDen_near {L zi x x' R : ℝ} (hL : 0 < L) (hx : 0 ≤ x) (h : LogNear (27 * A.e) x x') (he : A.e ≤ 1 / 100)
    (hR : |Real.log (1 / L ^ 2 + x)| ≤ R) : LogNear ((98 + 7 / 3 * R) * A.e) (lfDen L zi x) (A.lowDen L zi x') := by
  unfold lfDen lowDen
  have e0 := A.e_nonneg
  have b1 : LogNear (2 * A.e) (1 / L ^ 2) (A.div 1 (A.sq L)) :=
    (A.div_near (LogNear.refl 1) (A.pow2_near (LogNear.refl L))).mono (le_of_eq (by ring))
  have b2 := A.add_near (b1.mono (by linarith : 2 * A.e ≤ 27 * A.e)) h (by positivity) hx
  have b3 := A.powLit_near b2 (by positivity) hR (7 / 3)
  have b4 := A.mul_near h (A.pow2_near (LogNear.refl zi))
  have b5 := A.add_near ((LogNear.refl 1).mono (by linarith : (0:ℝ) ≤ 27 * A.e + (2 * 0 + A.e) + A.e)) b4 zero_le_one (by positivity)
  refine (A.mul_near b3 b5).mono ?_
  rw [abs_of_pos (by norm_num : (0:ℝ) < 7 / 3)]
  have : A.e * A.e ≤ 1 / 100 * A.e := mul_le_mul_of_nonneg_right he e0
  nlinarith

/-- One entry of the amplitude. -/
theorem lowPhi_near {c c' L psi zi dx dx' dy dy' k1 k1' k2 k2' ω R : ℝ} (hL : 0 < L) (hc : 0 ≤ c) (hdx : 0 ≤ dx) (hdy : 0 ≤ dy)
    (h1 : LogNear (10 * A.e) k1 k1') (h2 : LogNear (10 * A.e) k2 k2') (hx : LogNear (4 * A.e) dx dx')
    (hy : LogNear (4 * A.e) dy dy') (hω : LogNear ω c c') (hR : |Real.log (1 / L ^ 2 + lfKappaSq psi k1 k2)| ≤ R)
    (hsmall : (98 + 3 * R) * A.e ≤ 1) (he : A.e ≤ 1 / 100) (hk : k1 ^ 2 + k2 ^ 2 = 0 ∨ 1e-17 ≤ k1 ^ 2 + k2 ^ 2)
    (hD : 1e-28 ≤ (1 / L ^ 2) ^ (7 / 3 : ℝ)) :
    LogNear (ω / 2 + (104 + 7 / 6 * R) * A.e) (lfPhi c L psi zi dx dy k1 k2) (A.lowPhi c' L psi zi dx' dy' k1' k2') := by
  have e0 := A.e_nonneg
  have ω0 := hω.nonneg
  have R0 : 0 ≤ R := (abs_nonneg _).trans hR
  have ex1 : Real.exp A.e ≤ 2 := by
    have h := Real.exp_one_lt_d9
    have := Real.exp_le_exp.2 (by linarith : A.e ≤ 1 / 2)
    have h2 : Real.exp (1 / 2) ^ 2 = Real.exp 1 := by rw [← Real.exp_nat_mul]; norm_num
    nlinarith [Real.exp_pos (1 / 2)]
  have ex2 : 1 / 3 ≤ Real.exp (-1) := by
    rw [Real.exp_neg, one_div]
    exact inv_anti₀ (Real.exp_pos _) (by linarith [Real.exp_one_lt_d9])
  have lit : ∀ x : ℝ, 0 < x → 0 < A.rnd x ∧ A.rnd x ≤ 2 * x := by
    intro x hx
    have := (A.rnd_near x).bounds hx.le
    exact ⟨(A.rnd_near x).pos hx, this.2.trans (by nlinarith)⟩
  have low : ∀ {a x y : ℝ}, LogNear a x y → a ≤ 1 → 0 ≤ x → x / 3 ≤ y := by
    intro a x y h ha hx
    have := (h.mono ha).bounds hx
    nlinarith [this.1]
  -- magnitudes
  have s := A.add_near (A.pow2_near h1) (A.pow2_near h2) (sq_nonneg k1) (sq_nonneg k2)
  obtain ⟨κ, hκ⟩ : ∃ κ, κ = lfKappaSq psi k1 k2 := ⟨_, rfl⟩
  obtain ⟨κ', hκ'⟩ : ∃ κ', κ' = A.lowKappaSq psi k1' k2' := ⟨_, rfl⟩
  have κ0 : 0 ≤ κ := hκ ▸ lfKappaSq_nonneg psi k1 k2
  have t : LogNear (27 * A.e) κ κ' := by rw [hκ, hκ']; exact A.lowKappaSq_near psi h1 h2
  rw [← hκ] at hR
  have d := A.lowDen_near (zi := zi) hL κ0 t he hR
  have d0 : 1e-28 ≤ lfDen L zi κ := by
    unfold lfDen
    have p1 : (1 / L ^ 2) ^ (7 / 3 : ℝ) ≤ (1 / L ^ 2 + κ) ^ (7 / 3 : ℝ) :=
      Real.rpow_le_rpow (by positivity) (by linarith) (by norm_num)
    have p2 : 1 ≤ 1 + κ * zi ^ 2 := by nlinarith [mul_nonneg κ0 (sq_nonneg zi)]
    calc (1e-28 : ℝ) ≤ (1 / L ^ 2 + κ) ^ (7 / 3 : ℝ) * 1 := by rw [mul_one]; exact hD.trans p1
      _ ≤ _ := mul_le_mul_of_nonneg_left p2 (by positivity)
  have d1 : 1e-28 / 3 ≤ A.lowDen L zi κ' := by
    have := low d (by nlinarith) (by linarith)
    linarith
  have g1 : LogNear (17 / 2 * A.e) (2 * Real.pi / Real.sqrt (max (dx * dy) 1e-16))
      (A.div (A.mul 2 (A.rnd Real.pi)) (A.sqrt (max (A.mul dx' dy') (A.rnd 1e-16)))) := by
    have m1 := (A.mul_near hx hy)
    have m2 := m1.max ((A.rnd_near 1e-16).mono (by linarith : A.e ≤ 4 * A.e + 4 * A.e + A.e)) (by positivity) (by norm_num)
    exact (A.div_near (A.mul_near (LogNear.refl 2) (A.rnd_near Real.pi)) (A.sqrt_near m2)).mono (le_of_eq (by ring))
  unfold lfPhi lowPhi
  simp only
  rw [← hκ, ← hκ']
  rcases hk with hk | hk
  · have s0 : A.add (A.sq k1') (A.sq k2') = 0 := by
      obtain ⟨r, -, hr⟩ := s
      rw [hr, hk, zero_mul]
    rw [if_pos (by rw [hk]; norm_num), if_pos (by rw [s0]; exact (lit _ (by norm_num)).1)]
    exact (LogNear.refl 0).mono (by positivity)
  · have s1 : A.rnd 1e-20 ≤ A.add (A.sq k1') (A.sq k2') := by
      have := low s (by linarith) (by linarith)
      have := (lit 1e-20 (by norm_num)).2
      linarith
    rw [if_neg (by linarith), if_neg (not_lt.2 s1)]
    change LogNear _ (Real.sqrt (max ((if lfDen L zi κ < 1e-30 then 0 else c * Real.sqrt (max κ 1e-20) ^ 3 / lfDen L zi κ) /
      (Real.pi * Real.sqrt (k1 ^ 2 + k2 ^ 2) ^ 3)) 0) * _) _
    rw [if_neg (by linarith), if_neg (by have := (lit 1e-30 (by norm_num)).2; linarith)]
    have q1 := A.cube_near (A.sqrt_near (t.max ((A.rnd_near 1e-20).mono (by linarith : A.e ≤ 27 * A.e)) κ0 (by norm_num)))
    have q2 := A.div_near (A.mul_near hω q1) d
    have q3 := A.mul_near (A.rnd_near Real.pi) (A.cube_near (A.sqrt_near s))
    have q4 := A.div_near q2 q3
    have den : 0 < lfDen L zi κ := by linarith
    have q5 := A.sqrt_near (q4.max ((LogNear.refl 0).mono (by positivity)) (by positivity) le_rfl)
    refine (A.mul_near q5 g1).mono ?_
    nlinarith

/-! ### The object -/

theorem lowInit_fields {I : ℝ} {cfg : LFConfig} {lf : LowFreq} (h : A.lowInit I cfg = .ok lf) :
    lf.cfg = cfg ∧ lf.c = A.div cfg.sigma2 (A.mul 2 I) ∧ lf.userN1 = 2 ^ cfg.exp1 ∧ lf.userN2 = 2 ^ cfg.exp2 ∧
    ∃ (N1 N2 : ℤ) (d : ℝ), d = min (A.div (A.mul cfg.L1factor cfg.L2d) ((2 ^ cfg.exp1 : ℕ) : ℝ))
        (A.div (A.mul cfg.L2factor cfg.L2d) ((2 ^ cfg.exp2 : ℕ) : ℝ)) ∧ N1 ≠ 0 ∧ N2 ≠ 0 ∧
      lf.compDx = A.div (A.mul N1 d) N1 ∧ lf.compDy = A.div (A.mul N2 d) N2 ∧
      lf.compN1 = N1.toNat ∧ lf.compN2 = N2.toNat ∧
      N1 = evenCount ⌈A.div (max (A.mul cfg.L1factor cfg.L2d) (A.mul 5 cfg.L2d)) d⌉ ∧
      N2 = evenCount ⌈A.div (max (A.mul cfg.L2factor cfg.L2d) (A.mul 5 cfg.L2d)) d⌉ := by
  unfold lowInit at h
  by_cases h1 : cfg.L2d = 0
  · rw [if_pos h1] at h; cases h
  rw [if_neg h1] at h
  by_cases h2 : I < A.rnd 1e-16
  · rw [if_pos h2] at h; cases h
  rw [if_neg h2] at h
  simp only at h
  split_ifs at h with h3 h4 h5 h6
  all_goals first | (cases h; done) | skip
  all_goals
    obtain rfl := Except.ok.inj h
    push Not at h5
    exact ⟨rfl, rfl, rfl, rfl, _, _, _, rfl, h5.1, h5.2, rfl, rfl, rfl, rfl, rfl, rfl⟩

/-- The spacings and the normalisation constant. -/
theorem lowInit_near {I q : ℝ} {cfg : LFConfig} {lf lf' : LowFreq} (hp : cfg.Pos) (h : lfInit cfg = .ok lf)
    (h' : A.lowInit I cfg = .ok lf') (hI : LogNear q (∫ kappa in Set.Ioi (0 : ℝ), integrandShape cfg.L2d cfg.zi kappa) I) :
    LogNear (4 * A.e) lf.compDx lf'.compDx ∧ LogNear (4 * A.e) lf.compDy lf'.compDy ∧ LogNear (q + 2 * A.e) lf.c lf'.c ∧
    lf'.cfg = lf.cfg ∧ lf'.userN1 = lf.userN1 ∧ lf'.userN2 = lf.userN2 := by
  obtain ⟨c, hc⟩ := lfInit_computeC h
  obtain ⟨lf0, h0, e1, e2, -, -, l1, l2, N1, N2, ex, ey, -, ⟨dx, dy⟩, -⟩ := lfInit_ok hp hc
  rw [h] at h0
  obtain rfl := Except.ok.inj h0
  obtain ⟨-, -, hcc⟩ := computeC_ok hc
  obtain ⟨f1, f2, f3, f4, M1, M2, d, hd, n1, n2, f5, f6, -⟩ := A.lowInit_fields h'
  obtain ⟨hL, p1, p2⟩ := hp
  have near : LogNear (2 * A.e) (min lf.userDx lf.userDy) d := by
    rw [hd, ex, ey, l1, l2, N1, N2]
    refine LogNear.min ?_ ?_ (by positivity) (by positivity)
    · exact (A.div_near (A.mul_near (LogNear.refl _) (LogNear.refl _)) (LogNear.refl _)).mono (le_of_eq (by ring))
    · exact (A.div_near (A.mul_near (LogNear.refl _) (LogNear.refl _)) (LogNear.refl _)).mono (le_of_eq (by ring))
  have step : ∀ M : ℤ, M ≠ 0 → LogNear (4 * A.e) (min lf.userDx lf.userDy) (A.div (A.mul M d) M) := by
    intro M hM
    have hM' : (M : ℝ) ≠ 0 := by exact_mod_cast hM
    have := A.div_near (A.mul_near (LogNear.refl (M : ℝ)) near) (LogNear.refl (M : ℝ))
    rw [mul_div_cancel_left₀ _ hM'] at this
    exact this.mono (le_of_eq (by ring))
  refine ⟨by rw [dx, f5]; exact step _ n1, by rw [dy, f6]; exact step _ n2, ?_, by rw [f1, e1], by rw [f3, N1], by rw [f4, N2]⟩
  rw [e2, hcc, f2]
  exact (A.div_near (LogNear.refl _) (A.mul_near (LogNear.refl 2) hI)).mono (le_of_eq (by ring))

theorem lowFreq_near (n : ℕ) {d d' : ℝ} (h : LogNear (4 * A.e) d d') (j : ZMod n) :
    LogNear (10 * A.e) (lfFreq n d j) (A.lowFreq n d' j) := by
  unfold lfFreq lowFreq
  have a1 := A.mul_near (LogNear.refl 2) (A.rnd_near Real.pi)
  have a2 := A.mul_near (LogNear.refl (fftIdx n j : ℝ)) (A.div_near (LogNear.refl 1) (A.mul_near (LogNear.refl (n : ℝ)) h))
  rw [mul_one_div] at a2
  exact (A.mul_near a1 a2).mono (le_of_eq (by ring))

end LowFmt

/-! ### Sizes of the exact quantities -/

section
variable {n1 n2 : ℕ} [NeZero n1] [NeZero n2]

theorem lfFreq_abs_le {n : ℕ} [NeZero n] {d : ℝ} (hd : 0 < d) (j : ZMod n) : |lfFreq n d j| ≤ Real.pi / d := by
  have hn : (0 : ℝ) < n := by exact_mod_cast NeZero.pos n
  have hpi := Real.pi_pos
  obtain ⟨b1, b2⟩ := fftIdx_bounds j
  have c1 : -(n : ℝ) ≤ 2 * fftIdx n j := by exact_mod_cast b1
  have c2 : 2 * (fftIdx n j : ℝ) < n := by exact_mod_cast b2
  have e : lfFreq n d j = Real.pi / d * (2 * fftIdx n j / n) := by unfold lfFreq; field_simp
  rw [e, abs_mul, abs_of_pos (by positivity : 0 < Real.pi / d)]
  refine mul_le_of_le_one_right (by positivity) ?_
  rw [abs_div, abs_of_pos hn, div_le_one hn, abs_le]
  exact ⟨c1, c2.le⟩

theorem lfFreq_sq_or {n : ℕ} [NeZero n] {d : ℝ} (hd : 0 < d) (hl : n * d ≤ 1e9) (j : ZMod n) :
    lfFreq n d j = 0 ∨ 1e-17 ≤ lfFreq n d j ^ 2 := by
  have hn : (0 : ℝ) < n := by exact_mod_cast NeZero.pos n
  by_cases h0 : fftIdx n j = 0
  · left; unfold lfFreq; rw [h0]; simp
  · right
    rw [lfFreq_eq hd, mul_pow]
    have h1 : (1 : ℝ) ≤ (fftIdx n j : ℝ) ^ 2 := by
      have : 1 ≤ (fftIdx n j) ^ 2 := by
        have : 0 < (fftIdx n j) ^ 2 := by positivity
        omega
      exact_mod_cast this
    have h2 : 6e-9 ≤ 2 * Real.pi / (n * d) := by
      rw [le_div_iff₀ (by positivity)]
      have := Real.pi_gt_three
      nlinarith
    have h3 : (6e-9 : ℝ) ^ 2 ≤ (2 * Real.pi / (n * d)) ^ 2 := pow_le_pow_left₀ (by norm_num) h2 2
    nlinarith

theorem lfKappaSq_le (psi k1 k2 : ℝ) {m : ℝ} (h1 : k1 ^ 2 ≤ m) (h2 : k2 ^ 2 ≤ m) : lfKappaSq psi k1 k2 ≤ 2 * m := by
  unfold lfKappaSq
  have h := Real.sin_sq_add_cos_sq psi
  have a1 := mul_le_mul_of_nonneg_right h1 (sq_nonneg (Real.cos psi))
  have a2 := mul_le_mul_of_nonneg_right h2 (sq_nonneg (Real.sin psi))
  rw [mul_pow, mul_pow]
  nlinarith

/-- The largest value of the two transfer functions together. -/
theorem lfPhi_le {c L psi zi dx dy k1 k2 : ℝ} (hc : 0 ≤ c) (hL : 0 < L) (hcut : 1e-20 ≤ 1 / L ^ 2) :
    (lfPhi c L psi zi dx dy k1 k2 * k2) ^ 2 + (lfPhi c L psi zi dx dy k1 k2 * k1) ^ 2 ≤
      (2 * Real.pi / Real.sqrt (max (dx * dy) 1e-16) * Real.sqrt (Real.sqrt 2 * c * L ^ (8 / 3 : ℝ) / Real.pi)) ^ 2 := by
  have hpi := Real.pi_pos
  obtain ⟨G, hG⟩ : ∃ G, G = 2 * Real.pi / Real.sqrt (max (dx * dy) 1e-16) := ⟨_, rfl⟩
  obtain ⟨s, hs⟩ : ∃ s, s = k1 ^ 2 + k2 ^ 2 := ⟨_, rfl⟩
  obtain ⟨κ, hκ⟩ : ∃ κ, κ = lfKappaSq psi k1 k2 := ⟨_, rfl⟩
  have κ0 : 0 ≤ κ := hκ ▸ lfKappaSq_nonneg psi k1 k2
  have e0 : (lfPhi c L psi zi dx dy k1 k2 * k2) ^ 2 + (lfPhi c L psi zi dx dy k1 k2 * k1) ^ 2 =
      lfPhi c L psi zi dx dy k1 k2 ^ 2 * s := by rw [hs]; ring
  have r0 : 0 ≤ Real.sqrt 2 * c * L ^ (8 / 3 : ℝ) / Real.pi := by positivity
  rw [e0, mul_pow, Real.sq_sqrt r0, ← hG]
  unfold lfPhi
  simp only
  rw [← hG, ← hs, ← hκ]
  by_cases h1 : s < 1e-20
  · rw [if_pos h1]
    simp only [ne_eq, OfNat.ofNat_ne_zero, not_false_eq_true, zero_pow, zero_mul]
    positivity
  rw [if_neg h1]
  push Not at h1
  have s0 : 0 < s := by linarith
  obtain ⟨D, hD⟩ : ∃ D, D = (1 / L ^ 2 + κ) ^ (7 / 3 : ℝ) * (1 + κ * zi ^ 2) := ⟨_, rfl⟩
  rw [← hD]
  by_cases h2 : D < 1e-30
  · rw [if_pos h2]
    simp only [zero_div, max_self, Real.sqrt_zero, zero_mul, ne_eq, OfNat.ofNat_ne_zero, not_false_eq_true, zero_pow]
    positivity
  rw [if_neg h2]
  push Not at h2
  have D0 : 0 < D := by linarith
  obtain ⟨k, hk⟩ : ∃ k, k = Real.sqrt s := ⟨_, rfl⟩
  obtain ⟨w, hw⟩ : ∃ w, w = Real.sqrt (max κ 1e-20) := ⟨_, rfl⟩
  have k0 : 0 < k := hk ▸ Real.sqrt_pos.2 s0
  have kk : k ^ 2 = s := by rw [hk]; exact Real.sq_sqrt s0.le
  have m0 : 0 ≤ max κ 1e-20 := κ0.trans (le_max_left _ _)
  have w0 : 0 ≤ w := hw ▸ Real.sqrt_nonneg _
  have ww : w ^ 2 = max κ 1e-20 := by rw [hw]; exact Real.sq_sqrt m0
  rw [← hk, ← hw, max_eq_left (by positivity), mul_pow, Real.sq_sqrt (by positivity)]
  -- the three comparisons
  have b1 : w ≤ Real.sqrt 2 * k := by
    have : w ^ 2 ≤ (Real.sqrt 2 * k) ^ 2 := by
      rw [ww, mul_pow, Real.sq_sqrt (by norm_num), kk]
      refine max_le ?_ (by linarith)
      rw [hκ]
      exact lfKappaSq_le _ _ _ (by rw [hs]; nlinarith [sq_nonneg k2]) (by rw [hs]; nlinarith [sq_nonneg k1])
    exact (pow_le_pow_iff_left₀ w0 (by positivity) two_ne_zero).1 this
  have B0 : 0 < 1 / L ^ 2 + κ := by positivity
  have b2 : w ^ 2 ≤ 1 / L ^ 2 + κ := by rw [ww]; exact max_le (by linarith [one_div_pos.2 (pow_pos hL 2)]) (by linarith)
  have b3 : w ^ 2 ≤ L ^ (8 / 3 : ℝ) * D := by
    have p1 : (1 / L ^ 2 + κ) ^ (7 / 3 : ℝ) = (1 / L ^ 2 + κ) * (1 / L ^ 2 + κ) ^ (4 / 3 : ℝ) := by
      rw [← Real.rpow_one_add' B0.le (by norm_num)]
      norm_num
    have p2 : (1 / L ^ 2) ^ (4 / 3 : ℝ) ≤ (1 / L ^ 2 + κ) ^ (4 / 3 : ℝ) :=
      Real.rpow_le_rpow (by positivity) (by linarith) (by norm_num)
    have p3 : L ^ (8 / 3 : ℝ) * (1 / L ^ 2) ^ (4 / 3 : ℝ) = 1 := by
      rw [one_div, Real.inv_rpow (by positivity), ← Real.rpow_natCast, ← Real.rpow_mul hL.le,
        show ((2 : ℕ) : ℝ) * (4 / 3) = 8 / 3 by norm_num]
      exact mul_inv_cancel₀ (by positivity)
    have p4 : (1 / L ^ 2 + κ) ^ (7 / 3 : ℝ) ≤ D := by
      rw [hD]
      exact le_mul_of_one_le_right (by positivity) (by nlinarith [mul_nonneg κ0 (sq_nonneg zi)])
    have l0 : 0 < L ^ (8 / 3 : ℝ) := by positivity
    calc w ^ 2 ≤ (1 / L ^ 2 + κ) * 1 := by rw [mul_one]; exact b2
      _ = (1 / L ^ 2 + κ) * (L ^ (8 / 3 : ℝ) * (1 / L ^ 2) ^ (4 / 3 : ℝ)) := by rw [p3]
      _ ≤ (1 / L ^ 2 + κ) * (L ^ (8 / 3 : ℝ) * (1 / L ^ 2 + κ) ^ (4 / 3 : ℝ)) := by gcongr
      _ = L ^ (8 / 3 : ℝ) * (1 / L ^ 2 + κ) ^ (7 / 3 : ℝ) := by rw [p1]; ring
      _ ≤ _ := by gcongr
  have b4 : w ^ 3 ≤ Real.sqrt 2 * k * (L ^ (8 / 3 : ℝ) * D) := by
    calc w ^ 3 = w * w ^ 2 := by ring
      _ ≤ _ := mul_le_mul b1 b3 (by positivity) (by positivity)
  have b5 : c * w ^ 3 / D / (Real.pi * k ^ 3) * s ≤ Real.sqrt 2 * c * L ^ (8 / 3 : ℝ) / Real.pi := by
    rw [← kk, div_div, div_mul_eq_mul_div, div_le_div_iff₀ (by positivity) hpi]
    have := mul_le_mul_of_nonneg_left b4 (by positivity : 0 ≤ c * k ^ 2 * Real.pi)
    calc c * w ^ 3 * k ^ 2 * Real.pi = c * k ^ 2 * Real.pi * w ^ 3 := by ring
      _ ≤ _ := this
      _ = _ := by ring
  calc c * w ^ 3 / D / (Real.pi * k ^ 3) * G ^ 2 * s = G ^ 2 * (c * w ^ 3 / D / (Real.pi * k ^ 3) * s) := by ring
    _ ≤ _ := mul_le_mul_of_nonneg_left b5 (sq_nonneg _)

/-! ### The transforms -/

/-- Norm of a pair of families on the grid. -/
def pnorm {E : Type*} [NormedAddCommGroup E] (f : Fin 2 → Box n1 n2 1 → E) : ℝ :=
  wnorm (fun _ : Fin 2 × Box n1 n2 1 => 1) fun p => f p.1 p.2

theorem pnorm_sq {E : Type*} [NormedAddCommGroup E] (f : Fin 2 → Box n1 n2 1 → E) : pnorm f ^ 2 = ∑ i, ∑ k, ‖f i k‖ ^ 2 := by
  unfold pnorm
  rw [wnorm_sq (fun _ => zero_le_one)]
  simp only [one_mul]
  exact Fintype.sum_prod_type (fun p : Fin 2 × Box n1 n2 1 => ‖f p.1 p.2‖ ^ 2)

theorem pnorm_nonneg {E : Type*} [NormedAddCommGroup E] (f : Fin 2 → Box n1 n2 1 → E) : 0 ≤ pnorm f := wnorm_nonneg _ _

theorem pnorm_le {E : Type*} [NormedAddCommGroup E] {f : Fin 2 → Box n1 n2 1 → E} {c : ℝ} (hc : 0 ≤ c)
    (h : ∑ i, ∑ k, ‖f i k‖ ^ 2 ≤ c ^ 2) : pnorm f ≤ c := by
  rw [← pnorm_sq] at h
  exact (pow_le_pow_iff_left₀ (pnorm_nonneg _) hc two_ne_zero).1 h

theorem pnorm_add_le {E : Type*} [NormedAddCommGroup E] (f g : Fin 2 → Box n1 n2 1 → E) :
    pnorm (fun i k => f i k + g i k) ≤ pnorm f + pnorm g :=
  wnorm_add_le (fun _ => zero_le_one) (fun p : Fin 2 × Box n1 n2 1 => f p.1 p.2) (fun p => g p.1 p.2)

/-- Keeping the real part of the inverse transform does not enlarge. -/
theorem re_ifftn_energy (Y : Box n1 n2 1 → ℂ) : ∑ x, (ifftn Y x).re ^ 2 ≤ (∑ k, ‖Y k‖ ^ 2) / voxels n1 n2 1 := by
  have hN := voxels_posR (n1 := n1) (n2 := n2) (n3 := 1)
  have h1 : ∀ x, (ifftn Y x).re ^ 2 ≤ (1 / (voxels n1 n2 1 : ℝ)) ^ 2 * ‖∑ k, Y k * wave k x‖ ^ 2 := by
    intro x
    have h2 : (ifftn Y x).re ^ 2 ≤ ‖ifftn Y x‖ ^ 2 := by
      rw [← sq_abs]
      exact pow_le_pow_left₀ (abs_nonneg _) (Complex.abs_re_le_norm _) 2
    refine h2.trans (le_of_eq ?_)
    unfold ifftn
    rw [norm_mul, mul_pow]
    congr 2
    simp
  calc ∑ x, (ifftn Y x).re ^ 2 ≤ ∑ x, (1 / (voxels n1 n2 1 : ℝ)) ^ 2 * ‖∑ k, Y k * wave k x‖ ^ 2 :=
        Finset.sum_le_sum fun x _ => h1 x
    _ = (∑ k, ‖Y k‖ ^ 2) / voxels n1 n2 1 := by
        rw [← Finset.mul_sum, parseval_box]
        field_simp

theorem fftn_energy_plane (f : Box n1 n2 1 → ℝ) :
    ∑ k, ‖fftn (fun x => (f x : ℂ)) k‖ ^ 2 = voxels n1 n2 1 * ∑ x, f x ^ 2 := by
  rw [← fftn_energy f]
  refine Finset.sum_congr rfl fun k _ => ?_
  have h0 : k.2.2.val = 0 := by
    have := ZMod.val_lt k.2.2
    omega
  unfold halfWeight c2rWeight
  rw [if_pos (by omega), if_pos (Or.inl h0), one_mul]

theorem ifftn_sub (Y Z : Box n1 n2 1 → ℂ) (x : Box n1 n2 1) : ifftn (fun k => Y k - Z k) x = ifftn Y x - ifftn Z x := by
  unfold ifftn
  simp only [sub_mul, Finset.sum_sub_distrib, mul_sub]

/-- The error of the two transforms and the products. -/
theorem low_error {noise : Box n1 n2 1 → ℝ} {q q' : Fin 2 → Box n1 n2 1 → ℝ} {η ε τ M : ℝ} (hη : 0 ≤ η) (hε : 0 ≤ ε) (hM : 0 ≤ M)
    (hq : ∀ i k, LogNear τ (q i k) (q' i k)) (hQ : ∀ k, ∑ i, q i k ^ 2 ≤ M ^ 2) {h : Box n1 n2 1 → ℂ}
    {g : Fin 2 → Box n1 n2 1 → ℂ} {y : Fin 2 → Box n1 n2 1 → ℝ}
    (h1 : ∑ k, ‖h k - fftn (fun x => (noise x : ℂ)) k‖ ^ 2 ≤ η ^ 2 * ∑ k, ‖fftn (fun x => (noise x : ℂ)) k‖ ^ 2)
    (h2 : ∀ i k, ‖g i k - Complex.I * (q' i k : ℝ) * h k‖ ≤ ε * ‖Complex.I * (q' i k : ℝ) * h k‖)
    (h3 : ∀ i, ∑ x, (y i x - (ifftn (g i) x).re) ^ 2 ≤ η ^ 2 * ((∑ k, ‖g i k‖ ^ 2) / voxels n1 n2 1)) :
    let u := fun i x => (ifftn (fun k => Complex.I * (q i k : ℝ) * fftn (fun x => (noise x : ℂ)) k) x).re
    Real.sqrt (∑ i, ∑ x, u i x ^ 2) ≤ M * Real.sqrt (∑ x, noise x ^ 2) ∧
    Real.sqrt (∑ i, ∑ x, (y i x - u i x) ^ 2) ≤
      ((1 + η) ^ 2 * (1 + ε) * Real.exp τ - 1) * (M * Real.sqrt (∑ x, noise x ^ 2)) := by
  intro u
  have hN := voxels_posR (n1 := n1) (n2 := n2) (n3 := 1)
  obtain ⟨N, hNd⟩ : ∃ N, N = Real.sqrt (voxels n1 n2 1) := ⟨_, rfl⟩
  have N0 : 0 < N := by rw [hNd]; exact Real.sqrt_pos.2 hN
  have NN : N ^ 2 = voxels n1 n2 1 := by rw [hNd]; exact Real.sq_sqrt hN.le
  obtain ⟨F, hF⟩ : ∃ F : Box n1 n2 1 → ℂ, F = fftn fun x => (noise x : ℂ) := ⟨_, rfl⟩
  obtain ⟨b, hb⟩ : ∃ b, b = Real.sqrt (∑ x, noise x ^ 2) := ⟨_, rfl⟩
  have b0 : 0 ≤ b := hb ▸ Real.sqrt_nonneg _
  have F2 : ∑ k, ‖F k‖ ^ 2 = (N * b) ^ 2 := by
    rw [hF, fftn_energy_plane, mul_pow, NN, hb, Real.sq_sqrt (by positivity)]
  have τ0 : 0 ≤ τ := (hq 0 0).nonneg
  have E1 : 1 ≤ Real.exp τ := Real.one_le_exp τ0
  have nI : ∀ (r : ℝ) (z : ℂ), ‖Complex.I * (r : ℝ) * z‖ = |r| * ‖z‖ := by
    intro r z
    rw [norm_mul, norm_mul, Complex.norm_I, one_mul, Complex.norm_real, Real.norm_eq_abs]
  -- a pair of products with factors bounded by the exact ones
  have prod : ∀ {c : ℝ} (r : Fin 2 → Box n1 n2 1 → ℝ) (z : Box n1 n2 1 → ℂ) {s : ℝ}, 0 ≤ c → 0 ≤ s → (∀ i k, |r i k| ≤ c * |q i k|) →
      ∑ k, ‖z k‖ ^ 2 ≤ s ^ 2 → pnorm (fun i k => Complex.I * (r i k : ℝ) * z k) ≤ c * M * s := by
    intro c r z s hc hs hr hz
    refine pnorm_le (by positivity) ?_
    rw [Finset.sum_comm]
    calc ∑ k, ∑ i, ‖Complex.I * (r i k : ℝ) * z k‖ ^ 2 ≤ ∑ k, (c * M) ^ 2 * ‖z k‖ ^ 2 := by
          refine Finset.sum_le_sum fun k _ => ?_
          have : ∀ i, ‖Complex.I * (r i k : ℝ) * z k‖ ^ 2 ≤ c ^ 2 * ‖z k‖ ^ 2 * q i k ^ 2 := by
            intro i
            rw [nI, mul_pow]
            have := pow_le_pow_left₀ (abs_nonneg _) (hr i k) 2
            rw [mul_pow, sq_abs (q i k)] at this
            have := mul_le_mul_of_nonneg_right this (sq_nonneg ‖z k‖)
            linarith
          calc ∑ i, ‖Complex.I * (r i k : ℝ) * z k‖ ^ 2 ≤ ∑ i, c ^ 2 * ‖z k‖ ^ 2 * q i k ^ 2 := Finset.sum_le_sum fun i _ => this i
            _ = c ^ 2 * ‖z k‖ ^ 2 * ∑ i, q i k ^ 2 := by rw [← Finset.mul_sum]
            _ ≤ c ^ 2 * ‖z k‖ ^ 2 * M ^ 2 := mul_le_mul_of_nonneg_left (hQ k) (by positivity)
            _ = _ := by ring
      _ = (c * M) ^ 2 * ∑ k, ‖z k‖ ^ 2 := by rw [← Finset.mul_sum]
      _ ≤ (c * M) ^ 2 * s ^ 2 := mul_le_mul_of_nonneg_left hz (by positivity)
      _ = _ := by ring
  have r1 : ∀ i k, |q' i k| ≤ Real.exp τ * |q i k| := by
    intro i k
    obtain ⟨s, hs, e⟩ := hq i k
    rw [e, abs_mul, abs_of_pos (Real.exp_pos s), mul_comm]
    exact mul_le_mul_of_nonneg_right (Real.exp_le_exp.2 (abs_le.1 hs).2) (abs_nonneg _)
  have r2 : ∀ i k, |q' i k - q i k| ≤ (Real.exp τ - 1) * |q i k| := by
    intro i k
    rw [mul_comm]
    exact (hq i k).sub_le
  -- the noise
  have hdiff : ∑ k, ‖h k - F k‖ ^ 2 ≤ (η * (N * b)) ^ 2 := by rw [mul_pow, ← F2, hF]; exact h1
  have hh : ∑ k, ‖h k‖ ^ 2 ≤ ((1 + η) * (N * b)) ^ 2 := by
    have w := wnorm_le_add (fun _ => zero_le_one) h F (w := fun _ : Box n1 n2 1 => (1 : ℝ))
    have w1 : wnorm (fun _ : Box n1 n2 1 => (1 : ℝ)) (fun k => h k - F k) ≤ η * (N * b) :=
      wnorm_le_of_sq (by positivity) (by simpa using hdiff)
    have w2 : wnorm (fun _ : Box n1 n2 1 => (1 : ℝ)) F ≤ N * b :=
      wnorm_le_of_sq (by positivity) (by simpa using F2.le)
    have w3 := wnorm_sq (fun _ => zero_le_one) h (w := fun _ : Box n1 n2 1 => (1 : ℝ))
    simp only [one_mul] at w3
    rw [← w3]
    exact pow_le_pow_left₀ (wnorm_nonneg _ _) (by linarith) 2
  obtain ⟨a, ha⟩ : ∃ a, a = M * (N * b) := ⟨_, rfl⟩
  have a0 : 0 ≤ a := by rw [ha]; positivity
  obtain ⟨G, hG⟩ : ∃ G : Fin 2 → Box n1 n2 1 → ℂ, G = fun i k => Complex.I * (q i k : ℝ) * F k := ⟨_, rfl⟩
  have G1 : pnorm G ≤ a := by
    have := prod q F zero_le_one (mul_nonneg N0.le b0) (fun i k => (one_mul _).ge) F2.le
    rw [hG, ha]
    linarith
  have p1 : pnorm (fun i k => g i k - Complex.I * (q' i k : ℝ) * h k) ≤ ε * (Real.exp τ * (1 + η)) * a := by
    have := prod q' h (Real.exp_pos τ).le (by positivity) r1 hh
    have b1 : pnorm (fun i k => g i k - Complex.I * (q' i k : ℝ) * h k) ≤
        ε * pnorm (fun i k => Complex.I * (q' i k : ℝ) * h k) := by
      refine pnorm_le (mul_nonneg hε (pnorm_nonneg _)) ?_
      rw [mul_pow, pnorm_sq]
      simp only [Finset.mul_sum]
      refine Finset.sum_le_sum fun i _ => Finset.sum_le_sum fun k _ => ?_
      rw [← mul_pow]
      exact pow_le_pow_left₀ (norm_nonneg _) (h2 i k) 2
    refine b1.trans ((mul_le_mul_of_nonneg_left this hε).trans (le_of_eq ?_))
    rw [ha]; ring
  have p2 : pnorm (fun i k => Complex.I * (q' i k : ℝ) * (h k - F k)) ≤ Real.exp τ * η * a := by
    refine (prod q' (fun k => h k - F k) (Real.exp_pos τ).le (by positivity) r1 hdiff).trans (le_of_eq ?_)
    rw [ha]; ring
  have p3 : pnorm (fun i k => Complex.I * ((q' i k - q i k : ℝ) : ℝ) * F k) ≤ (Real.exp τ - 1) * a := by
    refine (prod (fun i k => q' i k - q i k) F (by linarith) (by positivity) r2 F2.le).trans (le_of_eq ?_)
    rw [ha]; ring
  have p4 : pnorm (fun i k => g i k - G i k) ≤ ((1 + η) * (1 + ε) * Real.exp τ - 1) * a := by
    have e : (fun i k => g i k - G i k) = fun i k => ((g i k - Complex.I * (q' i k : ℝ) * h k) +
        Complex.I * (q' i k : ℝ) * (h k - F k)) + Complex.I * ((q' i k - q i k : ℝ) : ℝ) * F k := by
      funext i k
      rw [hG]
      push_cast
      ring
    rw [e]
    have t1 := pnorm_add_le (fun i k => (g i k - Complex.I * (q' i k : ℝ) * h k) + Complex.I * (q' i k : ℝ) * (h k - F k))
      (fun i k => Complex.I * ((q' i k - q i k : ℝ) : ℝ) * F k)
    have t2 := pnorm_add_le (fun i k => g i k - Complex.I * (q' i k : ℝ) * h k) (fun i k => Complex.I * (q' i k : ℝ) * (h k - F k))
    refine t1.trans ?_
    have : ε * (Real.exp τ * (1 + η)) * a + Real.exp τ * η * a + (Real.exp τ - 1) * a =
        ((1 + η) * (1 + ε) * Real.exp τ - 1) * a := by ring
    linarith
  have p5 : pnorm g ≤ (1 + η) * (1 + ε) * Real.exp τ * a := by
    have := pnorm_add_le (fun i k => g i k - G i k) G
    simp only [sub_add_cancel] at this
    have e : ((1 + η) * (1 + ε) * Real.exp τ - 1) * a + a = (1 + η) * (1 + ε) * Real.exp τ * a := by ring
    linarith
  -- back to physical space
  have back : ∀ (Y : Fin 2 → Box n1 n2 1 → ℂ), pnorm (fun i x => (ifftn (Y i) x).re) ≤ pnorm Y / N := by
    intro Y
    refine pnorm_le (div_nonneg (pnorm_nonneg _) N0.le) ?_
    rw [div_pow, pnorm_sq, NN, Finset.sum_div]
    refine Finset.sum_le_sum fun i _ => ?_
    simp only [Real.norm_eq_abs, sq_abs]
    exact re_ifftn_energy _
  have z1 : pnorm (fun i x => y i x - (ifftn (g i) x).re) ≤ η * (pnorm g / N) := by
    refine pnorm_le (mul_nonneg hη (div_nonneg (pnorm_nonneg _) N0.le)) ?_
    rw [mul_pow, div_pow, pnorm_sq, NN, Finset.sum_div, Finset.mul_sum]
    refine Finset.sum_le_sum fun i _ => ?_
    simp only [Real.norm_eq_abs, sq_abs]
    exact h3 i
  have z2 : pnorm (fun i x => (ifftn (g i) x).re - u i x) ≤ pnorm (fun i k => g i k - G i k) / N := by
    have := back fun i k => g i k - G i k
    simp only [ifftn_sub, Complex.sub_re] at this
    rw [hG, hF] at this
    rw [hG, hF]
    exact this
  have real : ∀ f : Fin 2 → Box n1 n2 1 → ℝ, Real.sqrt (∑ i, ∑ x, f i x ^ 2) = pnorm f := by
    intro f
    have : ∑ i, ∑ x, f i x ^ 2 = pnorm f ^ 2 := by
      rw [pnorm_sq]
      simp only [Real.norm_eq_abs, sq_abs]
    rw [this, Real.sqrt_sq (pnorm_nonneg _)]
  have aN : a / N = M * b := by rw [ha]; field_simp
  rw [real, real, ← hb]
  constructor
  · have := back G
    have b2 : pnorm G / N ≤ a / N := div_le_div_of_nonneg_right G1 N0.le
    rw [aN] at b2
    refine le_trans ?_ (this.trans b2)
    rw [hG, hF]
  · have t := pnorm_add_le (fun i x => y i x - (ifftn (g i) x).re) (fun i x => (ifftn (g i) x).re - u i x)
    simp only [sub_add_sub_cancel] at t
    have c1 : η * (pnorm g / N) ≤ η * ((1 + η) * (1 + ε) * Real.exp τ * (M * b)) := by
      rw [← aN, ← mul_div_assoc ((1 + η) * (1 + ε) * Real.exp τ)]
      exact mul_le_mul_of_nonneg_left (div_le_div_of_nonneg_right p5 N0.le) hη
    have c2 : pnorm (fun i k => g i k - G i k) / N ≤ ((1 + η) * (1 + ε) * Real.exp τ - 1) * (M * b) := by
      rw [← aN, ← mul_div_assoc]
      exact div_le_div_of_nonneg_right p4 N0.le
    have : η * ((1 + η) * (1 + ε) * Real.exp τ * (M * b)) + ((1 + η) * (1 + ε) * Real.exp τ - 1) * (M * b) =
        ((1 + η) ^ 2 * (1 + ε) * Real.exp τ - 1) * (M * b) := by ring
    linarith

/-- The transfer functions divided by the imaginary unit. -/
def lfReal (lf : LowFreq) (i : Fin 2) (k : Box n1 n2 1) : ℝ :=
  match i with
  | 0 => lfAmp lf k * lfFreq n2 lf.compDy k.2.1
  | 1 => -(lfAmp lf k * lfFreq n1 lf.compDx k.1)

theorem lfQ_real (lf : LowFreq) (i : Fin 2) (k : Box n1 n2 1) : lfQ lf i k = Complex.I * (lfReal lf i k : ℝ) := by
  fin_cases i
  · exact lfQ_zero_eq lf k
  · exact lfQ_one_eq lf k

/-- The numbers for which the two evaluations take the same branches. -/
structure LowSizes (lf : LowFreq) (R : ℝ) : Prop where
  L0 : 0 < lf.cfg.L2d
  L1 : lf.cfg.L2d ≤ 1e6
  c0 : 0 ≤ lf.c
  d1 : 0 < lf.compDx
  d2 : lf.compDy = lf.compDx
  l1 : lf.compN1 * lf.compDx ≤ 1e9
  l2 : lf.compN2 * lf.compDx ≤ 1e9
  r1 : Real.exp (-R) ≤ 1 / lf.cfg.L2d ^ 2
  r2 : 1 / lf.cfg.L2d ^ 2 + 2 * (Real.pi / lf.compDx) ^ 2 ≤ Real.exp R

theorem LowSizes.cut {lf : LowFreq} {R : ℝ} (H : LowSizes lf R) : 1e-12 ≤ 1 / lf.cfg.L2d ^ 2 := by
  have := H.L0
  rw [le_div_iff₀ (by positivity)]
  have := pow_le_pow_left₀ H.L0.le H.L1 2
  calc (1e-12 : ℝ) * lf.cfg.L2d ^ 2 ≤ 1e-12 * 1e6 ^ 2 := by gcongr
    _ = 1 := by norm_num

theorem LowFmt.lowQ_near (A : LowFmt) {lf lf' : LowFreq} {ω R : ℝ} (e1 : n1 = lf.compN1) (e2 : n2 = lf.compN2) (H : LowSizes lf R)
    (hx : LogNear (4 * A.e) lf.compDx lf'.compDx) (hy : LogNear (4 * A.e) lf.compDy lf'.compDy) (hω : LogNear ω lf.c lf'.c)
    (hcfg : lf'.cfg = lf.cfg) (hsmall : (100 + 3 * R) * A.e ≤ 1) (R0 : 0 ≤ R) (i : Fin 2) (k : Box n1 n2 1) :
    LogNear (ω / 2 + (115 + 2 * R) * A.e) (lfReal lf i k) (A.lowQ lf' i k) := by
  have e0 := A.e_nonneg
  have f1 := A.lowFreq_near n1 hx k.1
  have f2 := A.lowFreq_near n2 hy k.2.1
  have d1 := H.d1
  have he : A.e ≤ 1 / 100 := by nlinarith
  have sq_le : ∀ {n : ℕ} [NeZero n] (j : ZMod n), lfFreq n lf.compDx j ^ 2 ≤ (Real.pi / lf.compDx) ^ 2 := by
    intro n _ j
    rw [← sq_abs]
    exact pow_le_pow_left₀ (abs_nonneg _) (lfFreq_abs_le d1 j) 2
  have hlog : |Real.log (1 / lf.cfg.L2d ^ 2 + lfKappaSq lf.cfg.psi (lfFreq n1 lf.compDx k.1) (lfFreq n2 lf.compDy k.2.1))| ≤ R := by
    have κ0 := lfKappaSq_nonneg lf.cfg.psi (lfFreq n1 lf.compDx k.1) (lfFreq n2 lf.compDy k.2.1)
    have κ1 := lfKappaSq_le lf.cfg.psi (lfFreq n1 lf.compDx k.1) (lfFreq n2 lf.compDy k.2.1) (sq_le k.1)
      (by rw [H.d2]; exact sq_le k.2.1)
    have pos : 0 < 1 / lf.cfg.L2d ^ 2 := lt_of_lt_of_le (by norm_num) H.cut
    rw [abs_le]
    constructor
    · rw [Real.le_log_iff_exp_le (by linarith)]; linarith [H.r1]
    · rw [Real.log_le_iff_le_exp (by linarith)]; linarith [H.r2]
  have hk : lfFreq n1 lf.compDx k.1 ^ 2 + lfFreq n2 lf.compDy k.2.1 ^ 2 = 0 ∨
      1e-17 ≤ lfFreq n1 lf.compDx k.1 ^ 2 + lfFreq n2 lf.compDy k.2.1 ^ 2 := by
    rcases lfFreq_sq_or d1 (by rw [e1]; exact H.l1) k.1 with z1 | z1
    · rcases lfFreq_sq_or (d := lf.compDy) (by rw [H.d2]; exact d1) (by rw [e2, H.d2]; exact H.l2) k.2.1 with z2 | z2
      · left; rw [z1, z2]; norm_num
      · right; nlinarith [sq_nonneg (lfFreq n1 lf.compDx k.1)]
    · right; nlinarith [sq_nonneg (lfFreq n2 lf.compDy k.2.1)]
  have hD : 1e-28 ≤ (1 / lf.cfg.L2d ^ 2) ^ (7 / 3 : ℝ) := by
    have h1 : ((1e-12 : ℝ)) ^ (7 / 3 : ℝ) = 1e-28 := by
      rw [show (1e-12 : ℝ) = (1e-4) ^ (3 : ℝ) by norm_num, ← Real.rpow_mul (by norm_num)]
      norm_num
    rw [← h1]
    exact Real.rpow_le_rpow (by norm_num) H.cut (by norm_num)
  have p := A.lowPhi_near (zi := lf.cfg.zi) H.L0 H.c0 d1.le (by rw [H.d2]; exact d1.le) f1 f2 hx hy hω hlog (by linarith) he hk hD
  have Re : 0 ≤ R * A.e := mul_nonneg R0 e0
  fin_cases i
  · change LogNear _ (lfAmp lf k * lfFreq n2 lf.compDy k.2.1) (A.mul _ _)
    rw [hcfg]
    exact (A.mul_near p f2).mono (by linarith)
  · change LogNear _ (-(lfAmp lf k * lfFreq n1 lf.compDx k.1)) (A.mul _ _)
    rw [hcfg]
    have := A.mul_near p f1.neg
    rw [mul_neg, ← neg_one_mul (A.lowFreq n1 lf'.compDx k.1)] at this
    exact this.mono (by linarith)

end

theorem sum_window {N n a : ℕ} (h : a + n ≤ N) (f : ℕ → ℝ) (h0 : ∀ i, 0 ≤ f i) :
    ∑ i ∈ Finset.range n, f (a + i) ≤ ∑ i ∈ Finset.range N, f i := by
  have e : ∑ i ∈ Finset.range n, f (a + i) = ∑ i ∈ Finset.Ico a (a + n), f i := by
    rw [Finset.sum_Ico_eq_sum_range]
    simp
  rw [e]
  exact Finset.sum_le_sum_of_subset_of_nonneg (fun i hi => by simp only [Finset.mem_Ico, Finset.mem_range] at hi ⊢; omega)
    fun i _ _ => h0 i

/-- Cutting out a window does not enlarge the sum of squares. -/
theorem sum_window2 {n1 n2 m1 m2 a b : ℕ} [NeZero n1] [NeZero n2] (ha : a + m1 ≤ n1) (hb : b + m2 ≤ n2) (f : Box n1 n2 1 → ℝ)
    (h0 : ∀ x, 0 ≤ f x) :
    ∑ i ∈ Finset.range m1, ∑ j ∈ Finset.range m2, f ((a + i : ℕ), (b + j : ℕ), 0) ≤ ∑ x, f x := by
  have e : ∑ x, f x = ∑ i ∈ Finset.range n1, ∑ j ∈ Finset.range n2, f ((i : ℕ), (j : ℕ), 0) := by
    rw [range_eq_box n1 n2 fun i j => f ((i : ℕ), (j : ℕ), 0)]
    refine Finset.sum_congr rfl fun x _ => congrArg f ?_
    rw [ZMod.natCast_zmod_val, ZMod.natCast_zmod_val]
    exact Prod.ext rfl (Prod.ext rfl (Subsingleton.elim _ _))
  rw [e]
  calc ∑ i ∈ Finset.range m1, ∑ j ∈ Finset.range m2, f ((a + i : ℕ), (b + j : ℕ), 0)
      ≤ ∑ i ∈ Finset.range m1, ∑ j ∈ Finset.range n2, f ((a + i : ℕ), (j : ℕ), 0) :=
        Finset.sum_le_sum fun i _ => sum_window hb (fun j => f ((a + i : ℕ), (j : ℕ), 0)) fun j => h0 _
    _ ≤ _ := sum_window ha (fun i => ∑ j ∈ Finset.range n2, f ((i : ℕ), (j : ℕ), 0)) fun i => Finset.sum_nonneg fun j _ => h0 _

/-! ### C149 -/

/-- **C149** Every array pair that the low-frequency generator can return in floating point arithmetic is close to the exact one, in the
root of the sum of squares, relative to a bound of the exact pair: the error is at most the relative error of two transforms, one product
and a transfer function that is computed without cancellation. -/
theorem C149_field (A : LowFmt) {cfg : LFConfig} (hp : cfg.Pos) (hs : 0 < cfg.sigma2) {lf lf' : LowFreq} (h : lfInit cfg = .ok lf)
    {I q : ℝ} (hI : LogNear q (∫ kappa in Set.Ioi (0 : ℝ), integrandShape cfg.L2d cfg.zi kappa) I) (h' : A.lowInit I cfg = .ok lf')
    (hN : lf'.compN1 = lf.compN1 ∧ lf'.compN2 = lf.compN2) (hL : cfg.L2d ≤ 1e6) (hl : lf.compL1 ≤ 1e9 ∧ lf.compL2 ≤ 1e9) {R : ℝ}
    (hR1 : Real.exp (-R) ≤ 1 / cfg.L2d ^ 2) (hR2 : 1 / cfg.L2d ^ 2 + 2 * (Real.pi / lf.compDx) ^ 2 ≤ Real.exp R)
    (hsmall : (100 + 3 * R) * A.e ≤ 1) {η ε : ℝ} (hη : 0 ≤ η) (hε : 0 ≤ ε) (γ : ℕ → ℝ) (pos : ℕ) {u' : Mat × Mat}
    (hu' : A.LowGenerate lf' γ pos η ε u') :
    let u := Spec.lowField lf γ pos
    let noise := Real.sqrt (∑ a ∈ Finset.range lf.compN1, ∑ b ∈ Finset.range lf.compN2, γ (pos + (a * lf.compN2 + b)) ^ 2)
    let scale := 2 * Real.pi / Real.sqrt (max (lf.compDx * lf.compDy) 1e-16) *
      Real.sqrt (Real.sqrt 2 * lf.c * cfg.L2d ^ (8 / 3 : ℝ) / Real.pi)
    (u'.1.HasShape (2 ^ cfg.exp1) (2 ^ cfg.exp2) ∧ u'.2.HasShape (2 ^ cfg.exp1) (2 ^ cfg.exp2)) ∧
    Real.sqrt (∑ c, ∑ i ∈ Finset.range (2 ^ cfg.exp1), ∑ j ∈ Finset.range (2 ^ cfg.exp2), (Spec.pick c u).entry i j ^ 2) ≤
      scale * noise ∧
    Real.sqrt (∑ c, ∑ i ∈ Finset.range (2 ^ cfg.exp1), ∑ j ∈ Finset.range (2 ^ cfg.exp2),
        ((Spec.pick c u').entry i j - (Spec.pick c u).entry i j) ^ 2) ≤
      ((1 + η) ^ 2 * (1 + ε) * Real.exp (q / 2 + (116 + 2 * R) * A.e) - 1) * (scale * noise) := by
  intro u noise scale
  obtain ⟨c, hc⟩ := lfInit_computeC h
  obtain ⟨lf0, h0, g1, g2, -, -, -, -, N1, N2, ex, ey, ⟨-, c1, -, c2⟩, ⟨dx, dy⟩, ⟨l1, l2⟩, -, -, n1', n2'⟩ := lfInit_ok hp hc
  rw [h] at h0
  obtain rfl := Except.ok.inj h0
  obtain ⟨i1, i2, i3, i4, i5, i6⟩ := A.lowInit_near hp h h' hI
  have q1 : (0 : ℝ) < lf.compN1 := by exact_mod_cast (by omega : 0 < lf.compN1)
  have R0 : 0 ≤ R := by
    have : Real.exp (-R) ≤ Real.exp R := by
      refine hR1.trans (le_trans ?_ hR2)
      have := sq_nonneg (Real.pi / lf.compDx)
      linarith
    have := Real.exp_le_exp.1 this
    linarith
  have hd : 0 < lf.compDx := by
    obtain ⟨a, b, c⟩ := hp
    by_contra hh
    push Not at hh
    have : 0 < lf.userDx ∧ 0 < lf.userDy := by
      obtain ⟨lf1, e, -, -, -, -, L1, L2, M1, M2, ex', ey', -⟩ := lfInit_ok ⟨a, b, c⟩ hc
      rw [h] at e
      obtain rfl := Except.ok.inj e
      rw [ex', ey', L1, L2, M1, M2]
      exact ⟨by positivity, by positivity⟩
    rw [dx] at hh
    exact absurd hh (not_le.2 (lt_min this.1 this.2))
  have H : LowSizes lf R := by
    have hdy : lf.compDy = lf.compDx := by rw [dx, dy]
    have hc0 : 0 ≤ lf.c := by rw [g2]; exact ((C71_sign hc).2 hs).le
    have hl1 : lf.compN1 * lf.compDx ≤ 1e9 := by rw [← l1]; exact hl.1
    have hl2 : lf.compN2 * lf.compDx ≤ 1e9 := by rw [← hdy, ← l2]; exact hl.2
    exact ⟨by rw [g1]; exact hp.1, by rw [g1]; exact hL, hc0, hd, hdy, hl1, hl2, by rw [g1]; exact hR1, by rw [g1]; exact hR2⟩
  obtain ⟨n1, n2, z1, z2, y, e1, e2, ⟨hh, g, k1, k2, k3⟩, x1, x2⟩ := hu'
  rw [hN.1] at e1
  rw [hN.2] at e2
  rw [i5, i6] at x1 x2
  subst e1 e2
  have scale0 : 0 ≤ scale := by positivity
  have bound : ∀ k : Box lf.compN1 lf.compN2 1, ∑ i, lfReal lf i k ^ 2 ≤ scale ^ 2 := by
    intro k
    rw [Fin.sum_univ_two]
    have := lfPhi_le (psi := lf.cfg.psi) (zi := lf.cfg.zi) (dx := lf.compDx) (dy := lf.compDy) (k1 := lfFreq lf.compN1 lf.compDx k.1)
      (k2 := lfFreq lf.compN2 lf.compDy k.2.1) H.c0 H.L0 (le_trans (by norm_num) H.cut)
    rw [g1] at this
    refine le_trans (le_of_eq ?_) this
    change (lfAmp lf k * _) ^ 2 + (-(lfAmp lf k * _)) ^ 2 = _
    rw [neg_sq]
    unfold lfAmp
    rw [g1]
  have near : ∀ i (k : Box lf.compN1 lf.compN2 1), LogNear (q / 2 + (116 + 2 * R) * A.e) (lfReal lf i k) (A.lowQ lf' i k) :=
    fun i k => (A.lowQ_near rfl rfl H i1 i2 i3 i4 hsmall R0 i k).mono (le_of_eq (by ring))
  have main := low_error hη hε scale0 near bound k1 k2 k3
  have hu : ∀ i (x : Box lf.compN1 lf.compN2 1), (ifftn (fun k => Complex.I * (lfReal lf i k : ℝ) *
      fftn (fun x => ((lfNoise γ pos : Box lf.compN1 lf.compN2 1 → ℝ) x : ℂ)) k) x).re = lfFull lf (lfNoise γ pos) i x := by
    intro i x
    unfold lfFull lfField
    simp only [lfQ_real]
  simp only [hu] at main
  have hnoise : Real.sqrt (∑ x : Box lf.compN1 lf.compN2 1, lfNoise γ pos x ^ 2) = noise := by
    change _ = Real.sqrt _
    rw [range_eq_box lf.compN1 lf.compN2 fun a b => γ (pos + (a * lf.compN2 + b)) ^ 2]
    rfl
  rw [hnoise] at main
  -- the windows
  obtain ⟨v1, a1, s1, w1⟩ := extract_spec (tab2_shape lf.compN1 lf.compN2 fun i j => y 0 (i, j, 0)) (by omega) n1' n2'
  obtain ⟨v2, a2, s2, w2⟩ := extract_spec (tab2_shape lf.compN1 lf.compN2 fun i j => y 1 (i, j, 0)) (by omega) n1' n2'
  have b1 : v1 = u'.1 := Except.ok.inj (a1.symm.trans x1)
  have b2 : v2 = u'.2 := Except.ok.inj (a2.symm.trans x2)
  subst b1 b2
  have ent : ∀ (f : ℕ → ℕ → ℝ) {i j : ℕ}, i < lf.compN1 → j < lf.compN2 → (tab2 lf.compN1 lf.compN2 f).entry i j = f i j := by
    intro f i j hi hj
    unfold Mat.entry tab2
    simp [List.getD_eq_getElem?_getD, hi, hj]
  have hy : ∀ (c : Fin 2) {i j : ℕ}, i < lf.userN1 → j < lf.userN2 → (Spec.pick c u').entry i j =
      y c (((lf.compN1 - lf.userN1) / 2 + i : ℕ), ((lf.compN2 - lf.userN2) / 2 + j : ℕ), 0) := by
    intro c i j hi hj
    fin_cases c
    · exact (w1 i hi j hj).trans (ent _ (by omega) (by omega))
    · exact (w2 i hi j hj).trans (ent _ (by omega) (by omega))
  have hx : ∀ (c : Fin 2) {i j : ℕ}, i < lf.userN1 → j < lf.userN2 → (Spec.pick c u).entry i j =
      lfFull lf (lfNoise γ pos : Box lf.compN1 lf.compN2 1 → ℝ) c
        (((lf.compN1 - lf.userN1) / 2 + i : ℕ), ((lf.compN2 - lf.userN2) / 2 + j : ℕ), 0) := by
    intro c i j hi hj
    obtain ⟨r1, r2, f1, f2, lfn, hg, -⟩ := generate_spec hp h γ pos
    have : u = (r1, r2) := by
      change Spec.lowField lf γ pos = _
      unfold Spec.lowField
      rw [hg]
    rw [this]
    exact pick_entry hp h hg c hi hj
  have win : ∀ (F : Fin 2 → ℕ → ℕ → ℝ) (f : Fin 2 → Box lf.compN1 lf.compN2 1 → ℝ), (∀ c i j, i < lf.userN1 → j < lf.userN2 →
      F c i j = f c (((lf.compN1 - lf.userN1) / 2 + i : ℕ), ((lf.compN2 - lf.userN2) / 2 + j : ℕ), 0)) →
      Real.sqrt (∑ c, ∑ i ∈ Finset.range lf.userN1, ∑ j ∈ Finset.range lf.userN2, F c i j ^ 2) ≤
        Real.sqrt (∑ c, ∑ x, f c x ^ 2) := by
    intro F f hF
    refine Real.sqrt_le_sqrt (Finset.sum_le_sum fun c _ => ?_)
    refine le_trans (le_of_eq ?_) (sum_window2 (a := (lf.compN1 - lf.userN1) / 2) (m1 := lf.userN1)
      (b := (lf.compN2 - lf.userN2) / 2) (m2 := lf.userN2) (by omega) (by omega) (fun x => f c x ^ 2) fun x => sq_nonneg _)
    refine Finset.sum_congr rfl fun i hi => Finset.sum_congr rfl fun j hj => ?_
    rw [hF c i j (Finset.mem_range.1 hi) (Finset.mem_range.1 hj)]
  rw [← N1, ← N2]
  refine ⟨⟨s1, s2⟩, (win _ _ fun c i j hi hj => hx c hi hj).trans main.1,
    (win (fun c i j => (Spec.pick c u').entry i j - (Spec.pick c u).entry i j)
      (fun c x => y c x - lfFull lf (lfNoise γ pos) c x) fun c i j hi hj => ?_).trans main.2⟩
  rw [hy c hi hj, hx c hi hj]

theorem evenCount_nonneg (n : ℤ) : 0 ≤ evenCount n := by
  unfold evenCount
  simp only
  split_ifs
  · exact le_max_of_le_right (by norm_num)
  · exact le_rfl

theorem exp_le_two_mul {x : ℝ} (hx : 0 ≤ x) (hx' : x ≤ 1 / 2) : Real.exp x ≤ 1 + 2 * x := by
  have := Real.add_one_le_exp (-x)
  have h : Real.exp x * Real.exp (-x) = 1 := by rw [← Real.exp_add]; simp
  have : Real.exp x * (1 - x) ≤ 1 := by
    rw [← h]; exact mul_le_mul_of_nonneg_left (by linarith) (Real.exp_pos _).le
  have h4 : (1 : ℝ) ≤ (1 + 2 * x) * (1 - x) := by nlinarith
  exact le_of_mul_le_mul_right (this.trans h4) (by linarith)

/-- Two computed spacings that stand for the same number pass the comparison. -/
theorem LowFmt.spacings_close (A : LowFmt) {d X Y : ℝ} (he : A.e ≤ 1e-7) (d0 : 0 < d) (nX : LogNear (2 * A.e) d X)
    (nY : LogNear (2 * A.e) d Y) : |A.sub X Y| ≤ A.add (A.rnd 1e-8) (A.mul (A.rnd 1e-5) |Y|) := by
  have e0 := A.e_nonneg
  have Y0 : 0 < Y := nY.pos d0
  have eY : 0 ≤ A.e * Y := by positivity
  have c1 := (nY.symm.trans nX).sub_le
  rw [abs_of_pos Y0] at c1 ⊢
  have c2 := exp_le_two_mul (x := 2 * A.e + 2 * A.e) (by linarith) (by linarith)
  have c3 : |X - Y| ≤ 8 * A.e * Y := by
    have := mul_le_mul_of_nonneg_left c2 Y0.le
    linarith
  have c4 : |A.sub X Y| ≤ 9 * A.e * Y := by
    obtain ⟨s, hs, e⟩ := A.rnd_near (X - Y)
    unfold Fmt.sub
    rw [e, abs_mul, abs_of_pos (Real.exp_pos s)]
    have s1 : Real.exp s ≤ 1.1 :=
      (Real.exp_le_exp.2 (abs_le.1 hs).2).trans ((exp_le_two_mul e0 (by linarith)).trans (by linarith))
    calc |X - Y| * Real.exp s ≤ 8 * A.e * Y * 1.1 := mul_le_mul c3 s1 (Real.exp_pos _).le (by positivity)
      _ ≤ 9 * A.e * Y := by linarith
  have c5 : LogNear (2 * A.e) (1e-5 * Y) (A.mul (A.rnd 1e-5) Y) :=
    (A.mul_near (A.rnd_near 1e-5) (LogNear.refl Y)).mono (le_of_eq (by ring))
  have c6 := A.add_near ((A.rnd_near 1e-8).mono (by linarith : A.e ≤ 2 * A.e)) c5 (by norm_num) (by positivity)
  have c7 := (c6.bounds (by positivity)).1
  have c8 := Real.add_one_le_exp (-(2 * A.e + A.e))
  have c9 : 9 * A.e * Y ≤ (1e-8 + 1e-5 * Y) * Real.exp (-(2 * A.e + A.e)) := by
    have : A.e * Y ≤ 1e-7 * Y := mul_le_mul_of_nonneg_right he Y0.le
    calc 9 * A.e * Y ≤ (1e-8 + 1e-5 * Y) * (1 / 2) := by linarith
      _ ≤ _ := mul_le_mul_of_nonneg_left (by linarith) (by positivity)
  exact c4.trans (c9.trans c7)

/-- The computed length of one axis is not below the length asked for by more than the tolerance. -/
theorem LowFmt.axis_long (A : LowFmt) {T d tol : ℝ} (he : A.e ≤ 1e-7) (d0 : 0 < d) (tol0 : 9e-10 ≤ tol) (hT : 0 < T)
    (hT' : 3 * A.e * T ≤ 8e-10) : A.sub T tol ≤ A.mul (evenCount ⌈A.div T d⌉ : ℤ) d ∧ evenCount ⌈A.div T d⌉ ≠ 0 := by
  have e0 := A.e_nonneg
  have r0 : 0 < A.div T d := (A.rnd_near _).pos (by positivity)
  obtain ⟨-, g2, g3, -⟩ := evenCount_spec r0
  refine ⟨?_, by omega⟩
  obtain ⟨M, hM⟩ : ∃ M, M = evenCount ⌈A.div T d⌉ := ⟨_, rfl⟩
  rw [← hM] at g2 g3 ⊢
  have M0 : (0 : ℝ) < M := by exact_mod_cast (by omega : 0 < M)
  have b1 := ((A.rnd_near (T / d)).bounds (by positivity)).1
  have b2 := ((A.rnd_near ((M : ℝ) * d)).bounds (by positivity)).1
  have b3 : T * Real.exp (-A.e) ≤ M * d := by
    have := mul_le_mul_of_nonneg_right (b1.trans g3) d0.le
    calc T * Real.exp (-A.e) = T / d * Real.exp (-A.e) * d := by field_simp
      _ ≤ _ := this
  have b4 : T * Real.exp (-A.e) * Real.exp (-A.e) ≤ A.mul M d :=
    (mul_le_mul_of_nonneg_right b3 (Real.exp_pos _).le).trans b2
  have x1 := Real.add_one_le_exp (-A.e)
  have b5 : T * (1 - 2 * A.e) ≤ A.mul M d := by
    have h1 : (1 - A.e) * (1 - A.e) ≤ Real.exp (-A.e) * Real.exp (-A.e) :=
      mul_le_mul (by linarith) (by linarith) (by linarith) (Real.exp_pos _).le
    have h2 := mul_le_mul_of_nonneg_left h1 hT.le
    have h3 : T * (1 - 2 * A.e) ≤ T * ((1 - A.e) * (1 - A.e)) :=
      mul_le_mul_of_nonneg_left (by nlinarith [sq_nonneg A.e]) hT.le
    linarith
  have m0 : 0 ≤ A.mul M d := (A.rnd_near _).nonneg_right (by positivity)
  rcases le_total T tol with hle | hle
  · have : A.sub T tol ≤ 0 := by
      have := (A.rnd_near (T - tol)).neg.nonneg_right (by linarith)
      unfold Fmt.sub
      linarith
    linarith
  · have b6 := (A.err (T - tol))
    rw [abs_of_nonneg (by linarith : 0 ≤ T - tol), abs_le] at b6
    have ue := A.u_le_e
    have b7 : A.sub T tol ≤ (T - tol) + A.e * T := by
      unfold Fmt.sub
      have := mul_le_mul_of_nonneg_right ue (by linarith : 0 ≤ T - tol)
      have : A.e * (T - tol) ≤ A.e * T := mul_le_mul_of_nonneg_left (by linarith) e0
      linarith
    linarith

/-- **C149** The rounded constructor does not raise: a domain shorter than `1e-9` over four units of error is never rejected as too
small, and the two spacings are never rejected as different. -/
theorem C149_constructed (A : LowFmt) {cfg : LFConfig} (hp : cfg.Pos) {I : ℝ} (hI : A.rnd 1e-16 ≤ I) (he : A.e ≤ 1e-7)
    (h1 : 4 * A.e * (cfg.L1factor * cfg.L2d) ≤ 1e-9) (h2 : 4 * A.e * (cfg.L2factor * cfg.L2d) ≤ 1e-9)
    (h3 : 4 * A.e * (5 * cfg.L2d) ≤ 1e-9) : ∃ lf', A.lowInit I cfg = .ok lf' := by
  obtain ⟨hL, p1, p2⟩ := hp
  have e0 := A.e_nonneg
  obtain ⟨L1, hL1⟩ : ∃ x, x = A.mul cfg.L1factor cfg.L2d := ⟨_, rfl⟩
  obtain ⟨L2, hL2⟩ : ∃ x, x = A.mul cfg.L2factor cfg.L2d := ⟨_, rfl⟩
  obtain ⟨L5, hL5⟩ : ∃ x, x = A.mul 5 cfg.L2d := ⟨_, rfl⟩
  have n1 : LogNear A.e (cfg.L1factor * cfg.L2d) L1 := by rw [hL1]; exact A.rnd_near _
  have n2 : LogNear A.e (cfg.L2factor * cfg.L2d) L2 := by rw [hL2]; exact A.rnd_near _
  have n5 : LogNear A.e (5 * cfg.L2d) L5 := by rw [hL5]; exact A.rnd_near _
  have l1 : 0 < L1 := n1.pos (by positivity)
  have l2 : 0 < L2 := n2.pos (by positivity)
  have up : ∀ {x y : ℝ}, LogNear A.e x y → 0 ≤ x → 4 * A.e * x ≤ 1e-9 → 3 * A.e * y ≤ 8e-10 := by
    intro x y h hx hh
    have b := (h.bounds hx).2
    have c := exp_le_two_mul e0 (by linarith)
    have : Real.exp A.e ≤ 1.01 := by linarith
    have : y ≤ 1.01 * x := b.trans (by nlinarith)
    have := mul_le_mul_of_nonneg_left this (by linarith : 0 ≤ 3 * A.e)
    linarith
  have u1 := up n1 (by positivity) h1
  have u2 := up n2 (by positivity) h2
  have u5 := up n5 (by positivity) h3
  obtain ⟨d, hd⟩ : ∃ d, d = min (A.div L1 ((2 ^ cfg.exp1 : ℕ) : ℝ)) (A.div L2 ((2 ^ cfg.exp2 : ℕ) : ℝ)) := ⟨_, rfl⟩
  have d0 : 0 < d := by
    rw [hd]
    exact lt_min ((A.rnd_near _).pos (by positivity)) ((A.rnd_near _).pos (by positivity))
  obtain ⟨tol, htol⟩ : ∃ t, t = A.rnd 1e-9 := ⟨_, rfl⟩
  have tol0 : 9e-10 ≤ tol := by
    have := ((A.rnd_near 1e-9).bounds (by norm_num)).1
    have h := Real.add_one_le_exp (-A.e)
    rw [htol]
    nlinarith
  have a1 := A.axis_long he d0 tol0 (T := max L1 L5) (lt_max_of_lt_left l1) (by
    rw [mul_max_of_nonneg _ _ (by positivity)]; exact max_le u1 u5)
  have a2 := A.axis_long he d0 tol0 (T := max L2 L5) (lt_max_of_lt_left l2) (by
    rw [mul_max_of_nonneg _ _ (by positivity)]; exact max_le u2 u5)
  unfold LowFmt.lowInit
  rw [if_neg hL.ne', if_neg (not_lt.2 hI)]
  simp only
  rw [← hL1, ← hL2, ← hL5, ← hd, ← htol, if_neg d0.ne']
  obtain ⟨M1, hM1⟩ : ∃ M, M = evenCount ⌈A.div (max L1 L5) d⌉ := ⟨_, rfl⟩
  obtain ⟨M2, hM2⟩ : ∃ M, M = evenCount ⌈A.div (max L2 L5) d⌉ := ⟨_, rfl⟩
  rw [← hM1] at a1 ⊢
  rw [← hM2] at a2 ⊢
  rw [if_neg (not_not.2 ⟨a1.1, a2.1⟩), if_neg (by push Not; exact ⟨a1.2, a2.2⟩), if_neg]
  · exact ⟨_, rfl⟩
  rw [not_not]
  have step : ∀ M : ℤ, M ≠ 0 → LogNear (2 * A.e) d (A.div (A.mul M d) M) := by
    intro M hM
    have hM' : (M : ℝ) ≠ 0 := by exact_mod_cast hM
    have := A.div_near (A.mul_near (LogNear.refl (M : ℝ)) (LogNear.refl d)) (LogNear.refl (M : ℝ))
    rw [mul_div_cancel_left₀ _ hM'] at this
    exact this.mono (le_of_eq (by ring))
  exact A.spacings_close he d0 (step M1 a1.2) (step M2 a2.2)

/-- **C149** With exact operations and the exact integral the rounded constructor is the exact one, whatever the configuration. -/
theorem C149_exact_constructor (cfg : LFConfig) :
    LowFmt.exact.lowInit (∫ kappa in Set.Ioi (0 : ℝ), integrandShape cfg.L2d cfg.zi kappa) cfg = lfInit cfg := by
  have cast : ∀ n : ℤ, ((evenCount n).toNat : ℝ) = (evenCount n : ℝ) := by
    intro n
    have : (((evenCount n).toNat : ℤ) : ℝ) = (evenCount n : ℝ) := by rw [Int.toNat_of_nonneg (evenCount_nonneg n)]
    rw [← this]; push_cast; rfl
  obtain ⟨V, hV⟩ : ∃ V, V = ∫ kappa in Set.Ioi (0 : ℝ), integrandShape cfg.L2d cfg.zi kappa := ⟨_, rfl⟩
  unfold LowFmt.lowInit lfInit computeC bufferSizes
  simp only
  rw [← hV]
  by_cases h1 : cfg.L2d = 0
  · rw [if_pos h1, if_pos h1]; rfl
  rw [if_neg h1, if_neg h1]
  simp only [LowFmt.exact, Fmt.exact, Fmt.div, Fmt.mul, Fmt.sub, Fmt.add, id]
  by_cases h2 : V < 1e-16
  · simp only [h2, ↓reduceIte]; rfl
  simp only [h2, ↓reduceIte]
  simp only [pyDiv, isClose, bind, Except.bind, pure, Except.pure, throw, throwThe, MonadExceptOf.throw]
  obtain ⟨d, hd⟩ : ∃ d, d = min (cfg.L1factor * cfg.L2d / ((2 ^ cfg.exp1 : ℕ) : ℝ))
    (cfg.L2factor * cfg.L2d / ((2 ^ cfg.exp2 : ℕ) : ℝ)) := ⟨_, rfl⟩
  simp only [← hd]
  by_cases h3 : d = 0
  · simp only [if_pos h3]
  simp only [if_neg h3]
  obtain ⟨M1, hM1⟩ : ∃ M, M = ⌈max (cfg.L1factor * cfg.L2d) (5 * cfg.L2d) / d⌉ := ⟨_, rfl⟩
  obtain ⟨M2, hM2⟩ : ∃ M, M = ⌈max (cfg.L2factor * cfg.L2d) (5 * cfg.L2d) / d⌉ := ⟨_, rfl⟩
  simp only [← hM1, ← hM2]
  by_cases h4 : max (cfg.L1factor * cfg.L2d) (5 * cfg.L2d) - 1e-9 ≤ (evenCount M1 : ℝ) * d ∧
      max (cfg.L2factor * cfg.L2d) (5 * cfg.L2d) - 1e-9 ≤ (evenCount M2 : ℝ) * d
  · simp only [h4, and_self, not_true_eq_false, if_false, cast]
    have z : ∀ n : ℤ, (evenCount n : ℝ) = 0 ↔ evenCount n = 0 := fun n => Int.cast_eq_zero
    by_cases h5 : evenCount M1 = 0
    · simp only [h5, true_or, if_true, Int.cast_zero]
    by_cases h6 : evenCount M2 = 0
    · simp only [h5, h6, or_true, if_true, if_false, z, Int.cast_zero]
    simp only [h5, h6, or_self, if_false, z]
    by_cases h7 : |(evenCount M1 : ℝ) * d / (evenCount M1 : ℝ) - (evenCount M2 : ℝ) * d / (evenCount M2 : ℝ)| ≤
        1e-8 + 1e-5 * |(evenCount M2 : ℝ) * d / (evenCount M2 : ℝ)|
    · simp only [h7, not_true_eq_false, ↓reduceIte]
    · simp only [h7, not_false_eq_true, ↓reduceIte]
  · simp only [h4, not_false_eq_true, if_true]

theorem exact_lowPhi (c L psi zi dx dy k1 k2 : ℝ) :
    LowFmt.exact.lowPhi c L psi zi dx dy k1 k2 = lfPhi c L psi zi dx dy k1 k2 := by
  have cube : ∀ x : ℝ, x * x ^ 2 = x ^ 3 := fun x => by ring
  unfold LowFmt.lowPhi LowFmt.lowKappaSq LowFmt.lowDen lfPhi lfKappaSq
  simp only [LowFmt.exact, Fmt.exact, Fmt.div, Fmt.mul, Fmt.sq, Fmt.sqrt, Fmt.add, id, ← pow_two, cube]

/-- **C149** With exact operations and transforms the pair returned is the exact one. -/
theorem C149_exact {cfg : LFConfig} (hp : cfg.Pos) {lf : LowFreq} (h : lfInit cfg = .ok lf) {γ : ℕ → ℝ} {pos : ℕ} {u : Mat × Mat}
    (hu : LowFmt.exact.LowGenerate lf γ pos 0 0 u) : u = Spec.lowField lf γ pos := by
  obtain ⟨n1, n2, z1, z2, y, rfl, rfl, ⟨hh, g, k1, k2, k3⟩, x1, x2⟩ := hu
  have e1 : ∀ k, hh k = fftn (fun x => ((lfNoise γ pos : Box lf.compN1 lf.compN2 1 → ℝ) x : ℂ)) k := by
    intro k
    have h0 : ∑ k, ‖hh k - fftn (fun x => ((lfNoise γ pos : Box lf.compN1 lf.compN2 1 → ℝ) x : ℂ)) k‖ ^ 2 = 0 :=
      le_antisymm (by simpa using k1) (Finset.sum_nonneg fun _ _ => sq_nonneg _)
    have := (Finset.sum_eq_zero_iff_of_nonneg fun k _ => sq_nonneg _).1 h0 k (Finset.mem_univ _)
    exact sub_eq_zero.1 (norm_eq_zero.1 (pow_eq_zero_iff two_ne_zero |>.1 this))
  have e2 : ∀ i k, g i k = lfQ lf i k * fftn (fun x => ((lfNoise γ pos : Box lf.compN1 lf.compN2 1 → ℝ) x : ℂ)) k := by
    intro i k
    have := k2 i k
    rw [zero_mul] at this
    rw [sub_eq_zero.1 (norm_eq_zero.1 (le_antisymm this (norm_nonneg _))), e1, lfQ_real]
    congr 2
    have fr : ∀ (n : ℕ) (d : ℝ) (j : ZMod n), LowFmt.exact.lowFreq n d j = lfFreq n d j := by
      intro n d j
      unfold LowFmt.lowFreq lfFreq
      simp only [LowFmt.exact, Fmt.exact, Fmt.div, Fmt.mul, id, mul_one_div]
    have : LowFmt.exact.lowQ lf i k = lfReal lf i k := by
      fin_cases i
      · change LowFmt.exact.mul _ _ = lfAmp lf k * _
        rw [exact_lowPhi, fr, fr]
        rfl
      · change LowFmt.exact.mul _ _ = -(lfAmp lf k * _)
        rw [exact_lowPhi, fr, fr]
        simp only [LowFmt.exact, Fmt.exact, Fmt.mul, id]
        unfold lfAmp
        ring
    rw [this]
  have e3 : ∀ i, y i = lfFull lf (lfNoise γ pos : Box lf.compN1 lf.compN2 1 → ℝ) i := by
    intro i
    funext x
    have h0 : ∑ x, (y i x - (ifftn (g i) x).re) ^ 2 = 0 :=
      le_antisymm (by simpa using k3 i) (Finset.sum_nonneg fun _ _ => sq_nonneg _)
    have := (Finset.sum_eq_zero_iff_of_nonneg fun k _ => sq_nonneg _).1 h0 x (Finset.mem_univ _)
    rw [sub_eq_zero.1 (pow_eq_zero_iff two_ne_zero |>.1 this)]
    have : g i = fun k => lfQ lf i k * fftn (fun x => ((lfNoise γ pos : Box lf.compN1 lf.compN2 1 → ℝ) x : ℂ)) k := funext (e2 i)
    rw [this]
    rfl
  have hpos : 0 < lf.compN1 ∧ 0 < lf.compN2 := ⟨NeZero.pos _, NeZero.pos _⟩
  unfold Spec.lowField LowFreq.generate
  rw [dif_pos hpos]
  simp only
  rw [e3] at x1 x2
  rw [x1]
  simp only
  rw [x2]

/-- Some pair can be returned, for every accuracy of the transforms and products. -/
theorem lowGenerate_exists (A : LowFmt) (lf : LowFreq) (h1 : 0 < lf.compN1) (h2 : 0 < lf.compN2) (l1 : lf.userN1 ≤ lf.compN1)
    (l2 : lf.userN2 ≤ lf.compN2) {η ε : ℝ} (hε : 0 ≤ ε) (γ : ℕ → ℝ) (pos : ℕ) : ∃ u, A.LowGenerate lf γ pos η ε u := by
  haveI : NeZero lf.compN1 := ⟨h1.ne'⟩
  haveI : NeZero lf.compN2 := ⟨h2.ne'⟩
  obtain ⟨h, hh⟩ : ∃ h : Box lf.compN1 lf.compN2 1 → ℂ, h = fftn fun x => ((lfNoise γ pos : Box lf.compN1 lf.compN2 1 → ℝ) x : ℂ) :=
    ⟨_, rfl⟩
  obtain ⟨y, hy⟩ : ∃ y : Fin 2 → Box lf.compN1 lf.compN2 1 → ℝ,
    y = fun i x => (ifftn (fun k => Complex.I * (A.lowQ lf i k : ℝ) * h k) x).re := ⟨_, rfl⟩
  obtain ⟨v1, a1, -⟩ := extract_spec (tab2_shape lf.compN1 lf.compN2 fun i j => y 0 (i, j, 0)) h1 l1 l2
  obtain ⟨v2, a2, -⟩ := extract_spec (tab2_shape lf.compN1 lf.compN2 fun i j => y 1 (i, j, 0)) h1 l1 l2
  refine ⟨(v1, v2), _, _, inferInstance, inferInstance, y, rfl, rfl, ⟨h, fun i k => Complex.I * (A.lowQ lf i k : ℝ) * h k, ?_, ?_, ?_⟩, a1, a2⟩
  · simp only [hh, sub_self, norm_zero]
    simp only [ne_eq, OfNat.ofNat_ne_zero, not_false_eq_true, zero_pow, Finset.sum_const_zero]
    exact mul_nonneg (sq_nonneg _) (Finset.sum_nonneg fun _ _ => sq_nonneg _)
  · intro i k
    rw [sub_self, norm_zero]
    exact mul_nonneg hε (norm_nonneg _)
  · intro i
    simp only [hy, sub_self, ne_eq, OfNat.ofNat_ne_zero, not_false_eq_true, zero_pow, Finset.sum_const_zero]
    exact mul_nonneg (sq_nonneg _) (div_nonneg (Finset.sum_nonneg fun _ _ => sq_nonneg _) (Nat.cast_nonneg _))

/-! ### A case -/

theorem nearest_fix {p : ℕ} {x : ℝ} (n : ℤ) (h : |x| = n * Fmt.ulp p x) : Fmt.nearest p x = x := by
  have hu : Fmt.ulp p x ≠ 0 := by unfold Fmt.ulp; positivity
  have e : |x| / Fmt.ulp p x = n := by rw [h]; field_simp
  unfold Fmt.nearest
  rw [e, round_intCast, ← h]
  exact sign_mul_abs x

theorem nearest_natCast {p n : ℕ} (h0 : n ≠ 0) (h : n < 2 ^ p) : Fmt.nearest p (n : ℝ) = n := by
  have hl : Nat.log 2 n + 1 ≤ p := (Nat.log_lt_iff_lt_pow Nat.one_lt_two h0).2 h
  refine nearest_fix ((n * 2 ^ (p - (Nat.log 2 n + 1)) : ℕ) : ℤ) ?_
  have e : Fmt.ulp p (n : ℝ) = ((2 : ℝ) ^ (p - (Nat.log 2 n + 1)))⁻¹ := by
    unfold Fmt.ulp
    rw [abs_of_nonneg (Nat.cast_nonneg n), Int.log_natCast, ← zpow_natCast, ← zpow_neg]
    congr 1
    omega
  rw [e, abs_of_nonneg (Nat.cast_nonneg n)]
  push_cast
  field_simp

/-- A small domain, where the computational grid is longer than the domain asked for. -/
def lowCase : LFConfig := ⟨0.6, 1, 0.75, 1, 4, 4, 2, 2⟩

/-- Grid of any arithmetic which represents 1, 4 and 5. -/
theorem lowCase_grid (A : LowFmt) (f1 : A.rnd 1 = 1) (f4 : A.rnd 4 = 4) (f5 : A.rnd 5 = 5) {I : ℝ} {lf : LowFreq}
    (h : A.lowInit I lowCase = .ok lf) : lf.compN1 = 6 ∧ lf.compN2 = 6 := by
  obtain ⟨-, -, -, -, N1, N2, d, hd, -, -, -, -, a1, a2, b1, b2⟩ := A.lowInit_fields h
  have hd1 : d = 1 := by
    rw [hd]
    simp only [lowCase, Fmt.mul, Fmt.div]
    norm_num [f1, f4]
  have : max (4 : ℝ) 5 = 5 := by norm_num
  have e6 : evenCount 5 = 6 := by decide
  have hN : ∀ {N : ℤ}, N = evenCount ⌈A.div (max (A.mul 4 1) (A.mul 5 1)) 1⌉ → N = 6 := by
    intro N hN
    rw [hN]
    simp only [Fmt.mul, Fmt.div, mul_one, div_one, f4, f5, this]
    rw [show (5 : ℝ) = ((5 : ℤ) : ℝ) by norm_num, Int.ceil_intCast, e6]
  rw [hd1] at b1 b2
  rw [a1, a2, hN b1, hN b2]
  decide

/-- The hypotheses of `C149_field` and `C149_constructed` hold for this domain in double precision, with a quadrature wrong by a
factor of `e`, transforms accurate to `1e-14` and products to `1e-15`. -/
example (γ : ℕ → ℝ) (pos : ℕ) : let A := LowFmt.binary 53 (by norm_num)
    ∃ lf lf' u', lfInit lowCase = .ok lf ∧
      A.lowInit ((∫ kappa in Set.Ioi (0 : ℝ), integrandShape 1 1 kappa) * Real.exp 1) lowCase = .ok lf' ∧
      (lf'.compN1 = lf.compN1 ∧ lf'.compN2 = lf.compN2) ∧ (lf.compL1 ≤ 1e9 ∧ lf.compL2 ≤ 1e9) ∧
      Real.exp (-4) ≤ 1 / lowCase.L2d ^ 2 ∧ 1 / lowCase.L2d ^ 2 + 2 * (Real.pi / lf.compDx) ^ 2 ≤ Real.exp 4 ∧
      (100 + 3 * 4) * A.e ≤ 1 ∧ A.LowGenerate lf' γ pos 1e-14 1e-15 u' := by
  intro A
  have hp : lowCase.Pos := by unfold LFConfig.Pos lowCase; norm_num
  obtain ⟨c, hc⟩ : ∃ c, computeC 0.6 1 1 = .ok c := C71_defined _ le_rfl (by norm_num) (by norm_num)
  obtain ⟨lf, h, -, -, -, -, u1, u2, m1, m2, s1, s2, ⟨-, c1, -, c2⟩, ⟨x1, x2⟩, ⟨l1, l2⟩, -, -, n1, n2⟩ := lfInit_ok hp hc
  have ev : A.v = (1 / 2) ^ 53 := rfl
  have he : A.e ≤ 1e-12 := by
    refine A.e_le.trans ?_
    rw [ev]
    norm_num
  have hI : A.rnd 1e-16 ≤ (∫ kappa in Set.Ioi (0 : ℝ), integrandShape 1 1 kappa) * Real.exp 1 := by
    have b := ((A.rnd_near 1e-16).bounds (by norm_num)).2
    have : (1e-16 : ℝ) ≤ ∫ kappa in Set.Ioi (0 : ℝ), integrandShape 1 1 kappa := by
      by_contra hlt
      rw [not_le] at hlt
      unfold computeC at hc
      simp only at hc
      rw [if_neg one_ne_zero, if_pos hlt] at hc
      cases hc
    calc A.rnd 1e-16 ≤ 1e-16 * Real.exp A.e := by linarith
      _ ≤ _ := mul_le_mul this (Real.exp_le_exp.2 (by linarith)) (Real.exp_pos _).le (by linarith)
  obtain ⟨lf', h'⟩ := C149_constructed A hp hI (he.trans (by norm_num)) (by unfold lowCase; norm_num; linarith)
    (by unfold lowCase; norm_num; linarith) (by unfold lowCase; norm_num; linarith)
  have g0 : lf.compN1 = 6 ∧ lf.compN2 = 6 := by
    have := C149_exact_constructor lowCase
    rw [h] at this
    exact lowCase_grid LowFmt.exact rfl rfl rfl this
  have fx : ∀ n : ℕ, n ≠ 0 → n < 2 ^ 53 → A.rnd n = n := fun n a b => nearest_natCast a b
  have g1 : lf'.compN1 = 6 ∧ lf'.compN2 = 6 := lowCase_grid A (by simpa using fx 1) (by simpa using fx 4) (by simpa using fx 5) h'
  have hd : lf.compDx = 1 := by
    rw [x1, s1, s2, u1, u2, m1, m2]
    norm_num [lowCase]
  have hd2 : lf.compDy = 1 := by rw [x2, ← x1, hd]
  obtain ⟨-, -, k1, k2, -⟩ := A.lowInit_fields h'
  obtain ⟨u', hu'⟩ := lowGenerate_exists A lf' (by omega) (by omega) (by rw [k1, g1.1]; decide) (by rw [k2, g1.2]; decide)
    (η := 1e-14) (ε := 1e-15) (by norm_num) γ pos
  have e4 : (50 : ℝ) ≤ Real.exp 4 := by
    have := Real.exp_one_gt_d9
    rw [show (4 : ℝ) = ((4 : ℕ) : ℝ) * 1 by norm_num, Real.exp_nat_mul]
    calc (50 : ℝ) ≤ 2.7 ^ 4 := by norm_num
      _ ≤ _ := pow_le_pow_left₀ (by norm_num) (by linarith) 4
  refine ⟨lf, lf', u', h, h', ⟨g1.1.trans g0.1.symm, g1.2.trans g0.2.symm⟩, ⟨?_, ?_⟩, ?_, ?_, ?_, hu'⟩
  · rw [l1, g0.1, hd]; norm_num
  · rw [l2, g0.2, hd2]; norm_num
  · change Real.exp (-4) ≤ 1 / (1 : ℝ) ^ 2
    norm_num
  · rw [hd]
    change 1 / (1 : ℝ) ^ 2 + _ ≤ _
    have := Real.pi_lt_d2
    have := Real.pi_pos
    norm_num
    nlinarith
  · linarith

end
end Verif
