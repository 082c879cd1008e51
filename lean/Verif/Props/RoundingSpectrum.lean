import Verif.Props.Rounding

/-!
# C137: the vertical spectrum in rounded arithmetic

Component `ww` contains no cancellation except in `k3 + beta k1`, which is harmless as long as the lifetime is moderate.  So the
vertical spectrum predicted in single precision is the exact one up to a small relative error, in whatever order torch adds.
-/

namespace Verif
open Fl Fmt Spec

noncomputable section

variable {A : Fmt}

theorem norm3_near (A : Fmt) (a b c : ℝ) : LogNear (5 / 2 * A.e) (Real.sqrt (a * a + b * b + c * c)) (A.norm3 a b c) :=
  (A.sqrt_near (sumsq_near A a b c)).mono (by linarith)

/-- Changing the third coordinate changes the length by at most as much. -/
theorem norm_shift (a b c c' : ℝ) :
    |Real.sqrt (a * a + b * b + c' * c') - Real.sqrt (a * a + b * b + c * c)| ≤ |c' - c| := by
  have h : ∀ t : ℝ, Real.sqrt (a * a + b * b + t * t) = ‖(⟨Real.sqrt (a * a + b * b), t⟩ : ℂ)‖ := by
    intro t
    rw [Complex.norm_def, Complex.normSq_mk, Real.mul_self_sqrt (add_nonneg (mul_self_nonneg a) (mul_self_nonneg b))]
  rw [h, h]
  refine (abs_norm_sub_norm_le _ _).trans (le_of_eq ?_)
  have : (⟨Real.sqrt (a * a + b * b), c'⟩ : ℂ) - ⟨Real.sqrt (a * a + b * b), c⟩ = ((c' - c : ℝ) : ℂ) * Complex.I := by
    apply Complex.ext <;> simp
  rw [this, norm_mul, Complex.norm_I, mul_one, Complex.norm_real, Real.norm_eq_abs]

theorem exp_sub_one_le {t : ℝ} (h0 : 0 ≤ t) (h : t ≤ 1 / 16) : Real.exp t - 1 ≤ 16 / 15 * t := by
  have h1 := Real.exp_bound_div_one_sub_of_interval h0 (by linarith : t < 1)
  have h2 : 1 / (1 - t) ≤ 1 + 16 / 15 * t := by
    rw [div_le_iff₀ (by linarith)]
    nlinarith
  linarith

theorem neg_log_le {q : ℝ} (h0 : 0 ≤ q) (h : q ≤ 1 / 2) : -Real.log (1 - q) ≤ 2 * q := by
  have hp : 0 < 1 - q := by linarith
  have h1 := Real.log_le_sub_one_of_pos (inv_pos.2 hp)
  rw [Real.log_inv] at h1
  have h2 : (1 - q)⁻¹ ≤ 1 + 2 * q := by
    rw [inv_le_iff_one_le_mul₀ hp]
    nlinarith
  linarith

/-- The length of the distorted wavevector. -/
theorem k0_near {β b R B : ℝ} (k : K3) (hb : LogNear ((7 + R) * A.e) β b) (hB : |β| ≤ B) (R0 : 0 ≤ R)
    (hK : 16 * ((8 + R) * (1 + 3 * B)) * A.e ≤ 1) (hpos : 0 < kk0R k β) :
    LogNear ((2 * ((8 + R) * (1 + 3 * B)) + 5 / 2) * A.e) (Real.sqrt (kk0R k β))
      (A.norm3 k.k1 k.k2 (A.add k.k3 (A.mul b k.k1))) := by
  have e0 := A.e_nonneg
  have B0 := (abs_nonneg _).trans hB
  obtain ⟨n, hn⟩ : ∃ n, n = Real.sqrt (kk0R k β) := ⟨_, rfl⟩
  obtain ⟨t, ht⟩ : ∃ t, t = A.add k.k3 (A.mul b k.k1) := ⟨_, rfl⟩
  have n0 : 0 < n := by rw [hn]; exact Real.sqrt_pos.2 hpos
  have nn : n * n = kk0R k β := by rw [hn]; exact Real.mul_self_sqrt hpos.le
  have k1n : |k.k1| ≤ n := by
    rw [← Real.sqrt_mul_self_eq_abs, hn]
    exact Real.sqrt_le_sqrt (by unfold kk0R; nlinarith [mul_self_nonneg k.k2, mul_self_nonneg (k30R k β)])
  have k3n : |k30R k β| ≤ n := by
    rw [← Real.sqrt_mul_self_eq_abs, hn]
    exact Real.sqrt_le_sqrt (by unfold kk0R; nlinarith [mul_self_nonneg k.k2, mul_self_nonneg k.k1])
  -- the product
  have hm : LogNear ((8 + R) * A.e) (β * k.k1) (A.mul b k.k1) :=
    (A.mul_near hb (LogNear.refl k.k1)).mono (le_of_eq (by ring))
  have hRe : (8 + R) * A.e ≤ 1 / 16 := by nlinarith [mul_nonneg (mul_nonneg (by linarith : (0:ℝ) ≤ 8 + R) B0) e0]
  have he : A.e ≤ 1 / 128 := by nlinarith
  have g1 := hm.sub_le
  have g2 := exp_sub_one_le (mul_nonneg (by linarith) e0) hRe
  have g3 : |A.mul b k.k1 - β * k.k1| ≤ B * n * (16 / 15 * ((8 + R) * A.e)) := by
    refine g1.trans (mul_le_mul ?_ g2 ?_ (by positivity))
    · rw [abs_mul]; exact mul_le_mul hB k1n (abs_nonneg _) B0
    · have := Real.add_one_le_exp ((8 + R) * A.e)
      have : 0 ≤ (8 + R) * A.e := mul_nonneg (by linarith) e0
      linarith
  -- the sum
  have g4 := A.err (k.k3 + A.mul b k.k1)
  have hu : A.u ≤ A.e := A.u_le_e
  have e1 : k.k3 + A.mul b k.k1 = k30R k β + (A.mul b k.k1 - β * k.k1) := by unfold k30R; ring
  have g5 : |t - k30R k β| ≤ A.e * (n + B * n * (16 / 15 * ((8 + R) * A.e))) + B * n * (16 / 15 * ((8 + R) * A.e)) := by
    have : |k.k3 + A.mul b k.k1| ≤ n + B * n * (16 / 15 * ((8 + R) * A.e)) := by
      rw [e1]; exact (abs_add_le _ _).trans (add_le_add k3n g3)
    have g6 : |A.rnd (k.k3 + A.mul b k.k1) - (k.k3 + A.mul b k.k1)| ≤ A.e * (n + B * n * (16 / 15 * ((8 + R) * A.e))) :=
      g4.trans (mul_le_mul hu this (abs_nonneg _) e0)
    have e2 : t - k30R k β = (A.rnd (k.k3 + A.mul b k.k1) - (k.k3 + A.mul b k.k1)) + (A.mul b k.k1 - β * k.k1) := by
      rw [ht]; unfold Fmt.add k30R; ring
    rw [e2]
    exact (abs_add_le _ _).trans (add_le_add g6 g3)
  obtain ⟨q, hq⟩ : ∃ q, q = (8 + R) * (1 + 3 * B) * A.e := ⟨_, rfl⟩
  have q0 : 0 ≤ q := by rw [hq]; positivity
  have q1 : q ≤ 1 / 16 := by rw [hq]; linarith
  have g7 : |t - k30R k β| ≤ q * n := by
    refine g5.trans ?_
    have y0 : 0 ≤ B * ((8 + R) * A.e) := mul_nonneg B0 (mul_nonneg (by linarith) e0)
    have y1 : A.e * (B * ((8 + R) * A.e)) ≤ 1 / 128 * (B * ((8 + R) * A.e)) := mul_le_mul_of_nonneg_right he y0
    have : A.e * (1 + 16 / 15 * (B * ((8 + R) * A.e))) + 16 / 15 * (B * ((8 + R) * A.e)) ≤ q := by
      rw [hq]; nlinarith
    have := mul_le_mul_of_nonneg_right this n0.le
    nlinarith
  have g8 : |Real.sqrt (k.k1 * k.k1 + k.k2 * k.k2 + t * t) - n| ≤ q * |n| := by
    have h := norm_shift k.k1 k.k2 (k30R k β) t
    rw [abs_of_pos n0, hn]
    rw [hn] at g7
    exact h.trans g7
  have g9 := LogNear.of_rel q0 (by linarith) g8
  have g10 := neg_log_le q0 (by linarith)
  rw [← hn, ← ht]
  refine (g9.trans (norm3_near A k.k1 k.k2 t)).mono ?_
  rw [hq] at g10 ⊢
  linarith

/-- How much the energy spectrum amplifies a relative error of its argument. -/
def Spec.spectrumGain : SpectrumChoice → ℝ
  | .vkLike => 14
  | .learnable p q => |p| + 2 * |q| + 2

/-- Energy spectrum without dimensional factors. -/
def specR : SpectrumChoice → ℝ → ℝ
  | .vkLike, x => x ^ (-5 / 3 : ℝ) * (x / Real.sqrt (1 + x * x)) ^ (17 / 3 : ℝ)
  | .learnable p q, x => x ^ p / (1 + x * x) ^ q

theorem specR_pos (sp : SpectrumChoice) {x : ℝ} (hx : 0 < x) : 0 < specR sp x := by
  cases sp <;> (unfold specR; positivity)

theorem spectrum_near (sp : SpectrumChoice) {a x x' R : ℝ} (h : LogNear a x x') (hx : 0 < x) (hR : |Real.log x| ≤ R)
    (he : A.e ≤ 1 / 100) : LogNear (spectrumGain sp * (a + (R + 2) * A.e)) (specR sp x) (A.spectrum sp x') := by
  cases sp with
  | vkLike => exact vkLike_near h hx hR he
  | learnable p q =>
    refine (learnable_near h hx p q).mono ?_
    have e0 := A.e_nonneg
    have a0 := h.nonneg
    have R0 := (abs_nonneg _).trans hR
    unfold spectrumGain
    have hp := abs_nonneg p
    have hq := abs_nonneg q
    have h1 : 0 ≤ (|p| + 2 * |q| + 2) * (R * A.e) := by positivity
    nlinarith [mul_nonneg hp e0, mul_nonneg hq e0]

theorem energyOf_specR (sp : SpectrumChoice) {L M n : ℝ} (hL : 0 < L) (hn : 0 < n) :
    energyOf L M sp n = M * L ^ (5 / 3 : ℝ) * specR sp (L * n) := by
  cases sp with
  | vkLike =>
    change M * n ^ (-5 / 3 : ℝ) * (n * L / Real.sqrt (1 + (n * L) ^ 2)) ^ (17 / 3 : ℝ) =
      M * L ^ (5 / 3 : ℝ) * ((L * n) ^ (-5 / 3 : ℝ) * (L * n / Real.sqrt (1 + L * n * (L * n))) ^ (17 / 3 : ℝ))
    have h1 : L ^ (5 / 3 : ℝ) * (L * n) ^ (-5 / 3 : ℝ) = n ^ (-5 / 3 : ℝ) := by
      rw [Real.mul_rpow hL.le hn.le, ← mul_assoc, ← Real.rpow_add hL]; norm_num
    rw [← h1, mul_comm n L, pow_two]; ring
  | learnable p q =>
    change M * L ^ (5 / 3 : ℝ) * ((L * n) ^ p / (1 + (L * n) ^ 2) ^ q) =
      M * L ^ (5 / 3 : ℝ) * ((L * n) ^ p / (1 + L * n * (L * n)) ^ q)
    rw [pow_two]

/-- Component 33 of the tensor. -/
theorem fitTensor_33_eq (p : OPSParams) {k1 : ℝ} (hk : k1 ≠ 0) (k2 k3 : ℝ) :
    fitTensor p k1 k2 k3 2 2 =
      p.M * p.L ^ (5 / 3 : ℝ) * specR p.sp (p.L * Real.sqrt (kk0R ⟨k1, k2, k3⟩ (eddyLifetime p.hyp p.ty p.L p.T ⟨k1, k2, k3⟩).toReal)) /
        (4 * Real.pi) / (kkR ⟨k1, k2, k3⟩ * kkR ⟨k1, k2, k3⟩) * sR ⟨k1, k2, k3⟩ := by
  obtain ⟨b, hb⟩ : ∃ b, b = (eddyLifetime p.hyp p.ty p.L p.T ⟨k1, k2, k3⟩).toReal := ⟨_, rfl⟩
  have h := congrArg Phi6.p33 (phiRaw_sheared (k := ⟨k1, k2, k3⟩) hk b (energyOf p.L p.M p.sp))
  rw [phiRaw_fin (k := ⟨k1, k2, k3⟩) hk] at h
  simp only [Fl.fin.injEq] at h
  unfold fitTensor
  rw [← hb]
  have hpos := kk0R_pos (k := ⟨k1, k2, k3⟩) (b := b) hk
  rw [← energyOf_specR p.sp p.L_pos (Real.sqrt_pos.2 hpos), h]
  rfl

theorem ite_eq_max (x c : ℝ) : (if x < c then c else x) = max x c := by
  rcases lt_or_ge x c with h | h
  · rw [if_pos h, max_eq_right h.le]
  · rw [if_neg (not_lt.2 h), max_eq_left h]

/-- One value of component 33. -/
theorem wwPoint_near (p : OPSParams) {k1 b R B : ℝ} (hk : k1 ≠ 0) (k2 k3 : ℝ)
    (hb : LogNear ((7 + R) * A.e) (eddyLifetime p.hyp p.ty p.L p.T ⟨k1, k2, k3⟩).toReal b)
    (hB : |(eddyLifetime p.hyp p.ty p.L p.T ⟨k1, k2, k3⟩).toReal| ≤ B)
    (hL : |p.logL| ≤ R)
    (hR : |Real.log (p.L * Real.sqrt (kk0R ⟨k1, k2, k3⟩ (eddyLifetime p.hyp p.ty p.L p.T ⟨k1, k2, k3⟩).toReal))| ≤ R)
    (hK : 16 * ((8 + R) * (1 + 3 * B)) * A.e ≤ 1) :
    LogNear ((3 * spectrumGain p.sp * ((8 + R) * (1 + 3 * B)) + 19 + 2 * R) * A.e)
      (max (fitTensor p k1 k2 k3 2 2) 1e-12) (A.wwPoint p.sp (A.expF p.logL) (A.expF p.logM) b ⟨k1, k2, k3⟩) := by
  obtain ⟨β, hβ⟩ : ∃ β, β = (eddyLifetime p.hyp p.ty p.L p.T ⟨k1, k2, k3⟩).toReal := ⟨_, rfl⟩
  obtain ⟨k, hkk⟩ : ∃ k : K3, k = ⟨k1, k2, k3⟩ := ⟨_, rfl⟩
  have h33 := fitTensor_33_eq p hk k2 k3
  rw [← hβ] at hb hB hR h33
  rw [← hkk] at hR h33 ⊢
  have hk' : k.k1 ≠ 0 := by rw [hkk]; exact hk
  have e0 := A.e_nonneg
  have R0 := (abs_nonneg _).trans hL
  have B0 := (abs_nonneg _).trans hB
  have hpos := kk0R_pos (k := k) (b := β) hk'
  have kkp := kkR_pos (k := k) hk'
  have sp := sR_pos (k := k) hk'
  have he : A.e ≤ 1 / 128 := by
    nlinarith [mul_nonneg (mul_nonneg (by linarith : (0:ℝ) ≤ 8 + R) B0) e0]
  have Lp := p.L_pos
  have Mp : 0 < p.M := Real.exp_pos _
  -- energy
  have hLn : LogNear A.e p.L (A.expF p.logL) := A.exp_near _
  have hMn : LogNear A.e p.M (A.expF p.logM) := A.exp_near _
  have a0 := A.mul_near hLn (k0_near k hb hB R0 hK hpos)
  have a1 := spectrum_near (A := A) p.sp a0 (mul_pos Lp (Real.sqrt_pos.2 hpos)) hR (by linarith)
  have hlog : |Real.log p.L| ≤ R := by rw [OPSParams.L, Real.log_exp]; exact hL
  have a2 := A.mul_near hMn (A.powLit_near hLn Lp hlog (5 / 3))
  have a3 := A.div_near (A.mul_near a2 a1) (A.rnd_near (4 * Real.pi))
  -- geometry
  have b1 := A.sq_near (sumsq_near A k.k1 k.k2 k.k3)
  have b2 : LogNear (2 * A.e) (k.k1 * k.k1 + k.k2 * k.k2) (A.add (A.sq k.k1) (A.sq k.k2)) := by
    have h := fun x => (A.sq_near (LogNear.refl x)).mono (show 2 * 0 + A.e ≤ A.e by linarith)
    exact (A.add_near (h k.k1) (h k.k2) (mul_self_nonneg _) (mul_self_nonneg _)).mono (by linarith)
  have c1 := A.mul_near (A.div_near a3 b1) b2
  have c2 : LogNear A.e (1e-12 : ℝ) (A.rnd 1e-12) := A.rnd_near _
  have G0 : 0 ≤ spectrumGain p.sp := by unfold spectrumGain; split <;> positivity
  unfold Fmt.wwPoint
  simp only [ite_eq_max]
  rw [h33]
  refine LogNear.max (c1.mono ?_) (c2.mono ?_) ?_ (by norm_num)
  · rw [abs_of_pos (by norm_num : (0:ℝ) < 5 / 3)]
    obtain ⟨G, hG⟩ : ∃ G, G = spectrumGain p.sp := ⟨_, rfl⟩
    obtain ⟨K, hKd⟩ : ∃ K, K = (8 + R) * (1 + 3 * B) := ⟨_, rfl⟩
    rw [← hG] at G0 ⊢
    rw [← hKd]
    have hK8 : 8 + R ≤ K := by rw [hKd]; nlinarith
    have m1 : G * (A.e + (2 * K + 5 / 2) * A.e + A.e + (R + 2) * A.e) ≤ 3 * G * K * A.e := by
      have : A.e + (2 * K + 5 / 2) * A.e + A.e + (R + 2) * A.e ≤ 3 * K * A.e := by nlinarith
      nlinarith [mul_le_mul_of_nonneg_left this G0]
    have m2 : A.e * (R + A.e) ≤ A.e * (R + 1 / 128) := by gcongr
    nlinarith
  · have : 0 ≤ 3 * spectrumGain p.sp * ((8 + R) * (1 + 3 * B)) := by positivity
    nlinarith
  · have := specR_pos p.sp (mul_pos Lp (Real.sqrt_pos.2 hpos))
    positivity

/-! ### Quadrature -/

theorem trapzTerms_near {g : List ℝ} (hg : g.Pairwise (· ≤ ·)) {f f' : ℝ → ℝ} {a : ℝ} (ha : 0 ≤ a) (h0 : ∀ x ∈ g, 0 ≤ f x)
    (h : ∀ x ∈ g, LogNear a (f x) (f' x)) :
    LogNear (a + 3 * A.e) (2 * trapz g (g.map f)) (A.trapzTerms g (g.map f')).sum ∧
      ∀ t ∈ A.trapzTerms g (g.map f'), 0 ≤ t := by
  have e0 := A.e_nonneg
  induction g with
  | nil =>
    simp only [List.map_nil, trapz, Fmt.trapzTerms, List.sum_nil, mul_zero]
    exact ⟨(LogNear.refl 0).mono (by linarith), by simp⟩
  | cons x t ih =>
    cases t with
    | nil =>
      simp only [List.map_cons, List.map_nil, trapz, Fmt.trapzTerms, List.sum_nil, mul_zero]
      exact ⟨(LogNear.refl 0).mono (by linarith), by simp⟩
    | cons y r =>
      have hg' := List.pairwise_cons.1 hg
      obtain ⟨i1, i2⟩ := ih hg'.2 (fun z hz => h0 z (List.mem_cons_of_mem _ hz)) (fun z hz => h z (List.mem_cons_of_mem _ hz))
      have hxy : 0 ≤ y - x := sub_nonneg.2 (hg'.1 y (by simp))
      have fx := h0 x (by simp)
      have fy := h0 y (by simp)
      have t1 := A.mul_near (A.add_near (h x (by simp)) (h y (by simp)) fx fy) (A.rnd_near (y - x))
      have t2 : LogNear (a + 3 * A.e) ((f x + f y) * (y - x)) (A.mul (A.add (f' x) (f' y)) (A.sub y x)) :=
        t1.mono (le_of_eq (by ring))
      have n1 : 0 ≤ (f x + f y) * (y - x) := by positivity
      have n2 : 0 ≤ 2 * trapz (y :: r) ((y :: r).map f) :=
        mul_nonneg zero_le_two (trapz_nonneg hg'.2 fun z hz => h0 z (List.mem_cons_of_mem _ hz))
      have e1 : 2 * trapz (x :: y :: r) ((x :: y :: r).map f) =
          (f x + f y) * (y - x) + 2 * trapz (y :: r) ((y :: r).map f) := by
        simp only [List.map_cons, trapz, smul_eq_mul]; ring
      have e2 : A.trapzTerms (x :: y :: r) ((x :: y :: r).map f') =
          A.mul (A.add (f' x) (f' y)) (A.sub y x) :: A.trapzTerms (y :: r) ((y :: r).map f') := rfl
      rw [e1, e2, List.sum_cons]
      refine ⟨t2.add i1 n1 n2, ?_⟩
      intro z hz
      rcases List.mem_cons.1 hz with rfl | hz
      · exact t2.nonneg_right n1
      · exact i2 z hz

/-- The trapezoidal rule adds `d + 4` units of error, whatever the order of summation. -/
theorem trapzOf_near {g : List ℝ} (hg : g.Pairwise (· ≤ ·)) {f f' : ℝ → ℝ} {a t : ℝ} {d : ℕ} (ha : 0 ≤ a)
    (h0 : ∀ x ∈ g, 0 ≤ f x) (h : ∀ x ∈ g, LogNear a (f x) (f' x)) (ht : A.TrapzOf g (g.map f') t d) :
    LogNear (a + (d + 4) * A.e) (trapz g (g.map f)) t := by
  obtain ⟨s, hs, rfl⟩ := ht
  obtain ⟨i1, i2⟩ := trapzTerms_near (A := A) hg ha h0 h
  have h1 := i1.trans (hs.near i2)
  have h2 := A.div_near h1 (LogNear.refl 2)
  rw [mul_div_cancel_left₀ _ (two_ne_zero)] at h2
  exact h2.mono (le_of_eq (by ring))

theorem quad23Of_near {g : List ℝ} (hg : g.Pairwise (· ≤ ·)) {f f' : ℝ → ℝ → ℝ} {a q : ℝ} {d : ℕ} (ha : 0 ≤ a)
    (h0 : ∀ x ∈ g, ∀ y ∈ g, 0 ≤ f x y) (h : ∀ x ∈ g, ∀ y ∈ g, LogNear a (f x y) (f' x y)) (hq : A.Quad23Of g g f' q d) :
    LogNear (a + 2 * (d + 4) * A.e) (quad23 g g f) q := by
  obtain ⟨row, hr, ht⟩ := hq
  have h1 : ∀ x ∈ g, LogNear (a + (d + 4) * A.e) (trapz g (g.map (f x))) (row x) := fun x hx =>
    trapzOf_near hg ha (h0 x hx) (h x hx) (hr x hx)
  have e0 := A.e_nonneg
  have h2 := trapzOf_near (f := fun x => trapz g (g.map (f x))) hg (by positivity) (fun x hx => trapz_nonneg hg (h0 x hx)) h1 ht
  exact h2.mono (le_of_eq (by ring))

/-- **C137** The vertical spectrum in rounded arithmetic.  Let the grid be increasing, `k1 > 0`, the logarithms of the length scale
and of the scaled distorted wavenumbers be at most `R`, the lifetimes at most `B` and computed with at most `7 + R` units of error,
and the unit small compared with `1 / ((8+R)(1+3B))`.  Whatever the order in which torch adds (nested at most `d` deep), the
returned value differs from the exact one by a relative error of about `((3 G + 4)(8+R)(1+3B) + 2 d)` units, where `G` is 14 for
the von Karman spectrum and `|p| + 2|q| + 2` for the learnable one. -/
theorem C137_ww (A : Fmt) (s : OPS) (hfin : s.params.LifetimeFinite) (hg : s.grid.Pairwise (· < ·)) {k1 R B : ℝ} (hk : 0 < k1)
    (B0 : 0 ≤ B) (b : K3 → ℝ) (hL : |s.logL| ≤ R)
    (hpt : ∀ k2 ∈ s.grid, ∀ k3 ∈ s.grid,
      let β := (eddyLifetime s.hyp s.params.ty (Real.exp s.logL) (Real.exp s.logT) ⟨k1, k2, k3⟩).toReal
      |β| ≤ B ∧ LogNear ((7 + R) * A.e) β (b ⟨k1, k2, k3⟩) ∧
      |Real.log (Real.exp s.logL * Real.sqrt (k1 ^ 2 + k2 ^ 2 + (k3 + β * k1) ^ 2))| ≤ R)
    (hK : 16 * ((8 + R) * (1 + 3 * B)) * A.e ≤ 1) {w : ℝ} {d : ℕ} (hw : A.WwOf s.sp s.logL s.logM b s.grid k1 w d) :
    ∃ uu vv ww uw vw uv : ℝ, (OPS.forward [k1] s).1 = .ok [[fin uu], [fin vv], [fin ww], [fin uw], [fin vw], [fin uv]] ∧
      |w - ww| ≤ (Real.exp (((3 * spectrumGain s.sp + 4) * ((8 + R) * (1 + 3 * B)) + 2 * d) * A.e) - 1) * ww := by
  choose y hy hphi using fun k2 k3 => opsPhi_spec s.params hfin hk.ne' k2 k3
  refine ⟨k1 * quad23 s.grid s.grid fun k2 k3 => max (fitTensor s.params k1 k2 k3 0 0) 1e-12,
    k1 * quad23 s.grid s.grid fun k2 k3 => max (fitTensor s.params k1 k2 k3 1 1) 1e-12,
    k1 * quad23 s.grid s.grid fun k2 k3 => max (fitTensor s.params k1 k2 k3 2 2) 1e-12,
    k1 * quad23 s.grid s.grid y,
    k1 * quad23 s.grid s.grid fun k2 k3 => max (fitTensor s.params k1 k2 k3 1 2) 1e-12,
    k1 * quad23 s.grid s.grid fun k2 k3 => max (fitTensor s.params k1 k2 k3 0 1) 1e-12, ?_, ?_⟩
  · rw [forward_eq]
    simp only [phiSelectors, List.map_cons, List.map_nil, hphi]
    have q : ∀ f : ℝ → ℝ → ℝ, quad23 s.grid s.grid (fun k2 k3 => fin (f k2 k3)) = fin (quad23 s.grid s.grid f) := fun f =>
      quad23_fin fun _ _ _ _ => rfl
    rw [q, q, q, q, q, q]
    simp only [fin_mul_fin]
  · have hgl : s.grid.Pairwise (· ≤ ·) := hg.imp le_of_lt
    have e0 := A.e_nonneg
    have R0 := (abs_nonneg _).trans hL
    obtain ⟨q, hq, rfl⟩ := hw
    have c0 : ∀ x ∈ s.grid, ∀ y ∈ s.grid, 0 ≤ max (fitTensor s.params k1 x y 2 2) 1e-12 := fun x _ y _ =>
      le_max_of_le_right (by norm_num)
    have hqq : 0 ≤ quad23 s.grid s.grid fun k2 k3 => max (fitTensor s.params k1 k2 k3 2 2) 1e-12 :=
      trapz_nonneg (f := fun x => trapz s.grid (s.grid.map fun y => max (fitTensor s.params k1 x y 2 2) 1e-12)) hgl
        fun x hx => trapz_nonneg hgl (c0 x hx)
    refine rel_of_near ?_ (mul_nonneg hk.le hqq)
    have hn : ∀ x ∈ s.grid, ∀ y ∈ s.grid,
        LogNear ((3 * spectrumGain s.sp * ((8 + R) * (1 + 3 * B)) + 19 + 2 * R) * A.e)
        (max (fitTensor s.params k1 x y 2 2) 1e-12) (A.wwPoint s.sp (A.expF s.logL) (A.expF s.logM) (b ⟨k1, x, y⟩) ⟨k1, x, y⟩) := by
      intro x hx y hy
      obtain ⟨h1, h2, h3⟩ := hpt x hx y hy
      refine wwPoint_near s.params hk.ne' x y h2 h1 hL ?_ hK
      have e1 : ∀ β : ℝ, k1 ^ 2 + x ^ 2 + (y + β * k1) ^ 2 = kk0R ⟨k1, x, y⟩ β := fun β => by unfold kk0R k30R; ring
      rw [e1] at h3
      exact h3
    have G0 : 0 ≤ spectrumGain s.sp := by unfold spectrumGain; split <;> positivity
    have hq' := quad23Of_near (A := A) hgl (by positivity) c0 hn hq
    refine (A.mul_near (LogNear.refl k1) hq').mono ?_
    have hK8 : 8 + R ≤ (8 + R) * (1 + 3 * B) := by nlinarith
    have : 0 + ((3 * spectrumGain s.sp * ((8 + R) * (1 + 3 * B)) + 19 + 2 * R) * A.e + 2 * (↑d + 4) * A.e) + A.e =
        (3 * spectrumGain s.sp * ((8 + R) * (1 + 3 * B)) + 28 + 2 * R + 2 * d) * A.e := by ring
    rw [this]
    refine mul_le_mul_of_nonneg_right ?_ e0
    nlinarith

/-- **C137** The lifetimes of types CONST and TWOTHIRD meet the hypothesis of `C137_ww`: at every wavevector with `k1 ≠ 0` they are
computed with at most `7 + R` units of error. -/
theorem C137_lifetimes (A : Fmt) (he : A.e ≤ 1 / 100) (hyp : ℝ → ℝ) (logL logT : ℝ) {R : ℝ} {k : K3} (hk : k.k1 ≠ 0)
    (hR : |Real.log (Real.exp logL * Real.sqrt (k.k1 ^ 2 + k.k2 ^ 2 + k.k3 ^ 2))| ≤ R) :
    LogNear ((7 + R) * A.e) (eddyLifetime hyp .const (Real.exp logL) (Real.exp logT) k).toReal
      (A.lifetime false (A.expF logL) (A.expF logT) k) ∧
    LogNear ((7 + R) * A.e) (eddyLifetime hyp .twothird (Real.exp logL) (Real.exp logT) k).toReal
      (A.lifetime true (A.expF logL) (A.expF logT) k) := by
  have e0 := A.e_nonneg
  have R0 := (abs_nonneg _).trans hR
  have hkk := kkR_pos (k := k) hk
  have hp : 0 < Real.exp logL * Real.sqrt (kkR k) := mul_pos (Real.exp_pos _) (Real.sqrt_pos.2 hkk)
  have e2 : k.k1 ^ 2 + k.k2 ^ 2 + k.k3 ^ 2 = kkR k := by unfold kkR; ring
  rw [e2] at hR
  have hT := A.exp_near logT
  constructor
  · have e1 : (eddyLifetime hyp .const (Real.exp logL) (Real.exp logT) k).toReal = Real.exp logT * 1 := rfl
    rw [e1]
    exact (A.mul_near hT (LogNear.refl 1)).mono (by nlinarith)
  · have e1 : (eddyLifetime hyp .twothird (Real.exp logL) (Real.exp logT) k).toReal =
        Real.exp logT * (Real.exp logL * Real.sqrt (kkR k)) ^ (-2 / 3 : ℝ) := by
      unfold eddyLifetime
      simp only [vecNorm_kkR, fin_mul_fin, pow_fin _ hp, Fl.toReal]
    rw [e1]
    have h1 := A.mul_near (A.exp_near logL) (norm3_near A k.k1 k.k2 k.k3)
    have h2 := A.powLit_near h1 hp hR (-2 / 3)
    have h3 := A.mul_near hT h2
    refine h3.mono ?_
    rw [abs_of_neg (by norm_num)]
    have : A.e * A.e ≤ 1 / 100 * A.e := mul_le_mul_of_nonneg_right he e0
    nlinarith

/-- **C137** In exact arithmetic the rounded model is the model: there is no error. -/
theorem C137_exact (s : OPS) (hfin : s.params.LifetimeFinite) (hg : s.grid.Pairwise (· < ·)) {k1 : ℝ} (hk : 0 < k1) {w : ℝ} {d : ℕ}
    (hw : Fmt.exact.WwOf s.sp s.logL s.logM
      (fun k => (eddyLifetime s.hyp s.params.ty (Real.exp s.logL) (Real.exp s.logT) k).toReal) s.grid k1 w d) :
    ∃ uu vv uw vw uv : ℝ, (OPS.forward [k1] s).1 = .ok [[fin uu], [fin vv], [fin w], [fin uw], [fin vw], [fin uv]] := by
  have e0 : Fmt.exact.e = 0 := by simp [Fmt.e, Fmt.exact]
  obtain ⟨β, hβ⟩ : ∃ β : K3 → ℝ, β = fun k => (eddyLifetime s.hyp s.params.ty (Real.exp s.logL) (Real.exp s.logT) k).toReal := ⟨_, rfl⟩
  obtain ⟨ρ, hρ⟩ : ∃ ρ : ℝ → ℝ → ℝ, ρ = fun k2 k3 =>
    |Real.log (Real.exp s.logL * Real.sqrt (k1 ^ 2 + k2 ^ 2 + (k3 + β ⟨k1, k2, k3⟩ * k1) ^ 2))| := ⟨_, rfl⟩
  obtain ⟨R, hR⟩ : ∃ R, |s.logL| ≤ R ∧ ∀ k2 ∈ s.grid, ∀ k3 ∈ s.grid, ρ k2 k3 ≤ R := by
    obtain ⟨R, h⟩ := ((s.grid.product s.grid).map fun q => ρ q.1 q.2).toFinset.bddAbove
    refine ⟨max |s.logL| R, le_max_left _ _, fun k2 h2 k3 h3 => le_max_of_le_right (h ?_)⟩
    simp only [List.coe_toFinset, List.mem_map, Set.mem_setOf_eq]
    exact ⟨(k2, k3), List.mem_product.2 ⟨h2, h3⟩, rfl⟩
  obtain ⟨B, B0, hB⟩ : ∃ B, 0 ≤ B ∧ ∀ k2 ∈ s.grid, ∀ k3 ∈ s.grid, |β ⟨k1, k2, k3⟩| ≤ B := by
    obtain ⟨R, h⟩ := ((s.grid.product s.grid).map fun q => |β ⟨k1, q.1, q.2⟩|).toFinset.bddAbove
    refine ⟨max 0 R, le_max_left _ _, fun k2 h2 k3 h3 => le_max_of_le_right (h ?_)⟩
    simp only [List.coe_toFinset, List.mem_map, Set.mem_setOf_eq]
    exact ⟨(k2, k3), List.mem_product.2 ⟨h2, h3⟩, rfl⟩
  obtain ⟨uu, vv, ww, uw, vw, uv, hf, h⟩ := C137_ww Fmt.exact s hfin hg (R := R) (B := B) hk B0 _ hR.1 (by
    intro k2 h2 k3 h3
    have q1 := hB k2 h2 k3 h3
    have q2 := hR.2 k2 h2 k3 h3
    rw [hρ] at q2
    rw [hβ] at q1 q2
    refine ⟨q1, ?_, q2⟩
    rw [e0, mul_zero]
    exact LogNear.refl _) (by rw [e0]; simp) hw
  rw [e0, mul_zero, Real.exp_zero, sub_self, zero_mul] at h
  have : w = ww := by
    have := abs_eq_zero.1 (le_antisymm h (abs_nonneg _))
    linarith
  rw [this]
  exact ⟨uu, vv, uw, vw, uv, hf⟩

theorem trapzTerms_length (A : Fmt) (g : List ℝ) (f : ℝ → ℝ) : (A.trapzTerms g (g.map f)).length = g.length - 1 := by
  induction g with
  | nil => rfl
  | cons x t ih =>
    cases t with
    | nil => rfl
    | cons y r =>
      have e2 : A.trapzTerms (x :: y :: r) ((x :: y :: r).map f) =
          A.mul (A.add (f x) (f y)) (A.sub y x) :: A.trapzTerms (y :: r) ((y :: r).map f) := rfl
      rw [e2, List.length_cons, ih]; simp

/-- Adding one term after another is an admissible order: there is always a result, nested as deep as the grid has intervals. -/
example (A : Fmt) (sp : SpectrumChoice) (logL logM : ℝ) (b : K3 → ℝ) (g : List ℝ) (k1 : ℝ) :
    ∃ w, A.WwOf sp logL logM b g k1 w (g.length - 1) := by
  have h : ∀ f : ℝ → ℝ, ∃ t, A.TrapzOf g (g.map f) t (g.length - 1) := by
    intro f
    obtain ⟨s, hs⟩ := Summation.foldl (A := A) (A.trapzTerms g (g.map f))
    rw [trapzTerms_length] at hs
    exact ⟨_, s, hs, rfl⟩
  choose t ht using h
  exact ⟨_, _, ⟨fun k2 => t fun k3 => A.wwPoint sp (A.expF logL) (A.expF logM) (b ⟨k1, k2, k3⟩) ⟨k1, k2, k3⟩, fun k2 _ => ht _, ht _⟩, rfl⟩

/-- Single precision with library functions within four units in the last place: for lifetimes up to 4, scaled wavenumbers
between `1e-4` and `1e4` and sums nested at most 201 deep the bound of `C137_ww` is 0.3 percent. -/
example (A : Fmt) (hv : A.v ≤ 1 / 2 ^ 22) : (16 * ((8 + 10) * (1 + 3 * 4)) * A.e ≤ 1) ∧
    Real.exp (((3 * spectrumGain .vkLike + 4) * ((8 + 10) * (1 + 3 * 4)) + 2 * (201:ℕ)) * A.e) - 1 ≤ 0.003 := by
  have h := A.e_le
  have h1 : A.v / (1 - A.v) ≤ 2.4e-7 := by
    rw [div_le_iff₀ (by linarith)]
    linarith
  have h2 : A.e ≤ 2.4e-7 := h.trans h1
  have e0 := A.e_nonneg
  refine ⟨by linarith, ?_⟩
  obtain ⟨y, hy⟩ : ∃ y, y = ((3 * spectrumGain .vkLike + 4) * ((8 + 10) * (1 + 3 * 4)) + 2 * (201:ℕ)) * A.e := ⟨_, rfl⟩
  rw [← hy]
  unfold spectrumGain at hy
  push_cast at hy
  have y0 : 0 ≤ y := by linarith
  have y1 : y ≤ 0.0028 := by linarith
  have h3 := (abs_le.1 (Real.abs_exp_sub_one_sub_id_le (x := y) (by rw [abs_of_nonneg y0]; linarith))).2
  nlinarith

end
end Verif
