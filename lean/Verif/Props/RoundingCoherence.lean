import Verif.Model.RoundedCoherence
import Verif.Props.RoundingTensor
import Verif.Props.CoherenceLimit

/-!
# C148: rounding errors of the coherence

The coherence is a quotient of integrals.  Its error is governed by the relative error of the integral of the component over the grid
and by the error of the phases, which grows with the largest phase.
-/

namespace Verif
open Fl Fmt Spec

noncomputable section

theorem cohFloor_near (A : CohFmt) {a S x x' : ℝ} (h : ScaleNear a S x x') (ha : A.e ≤ a) :
    ScaleNear a (S + 1e-32) (max x 1e-32) (A.cohFloor x') := by
  have S0 := h.scale_nonneg
  have hx := abs_le.1 h.2.1
  have g0 := ScaleNear.exp_sub_one_nonneg h.1
  unfold CohFmt.cohFloor
  rw [ite_eq_max]
  refine ⟨h.1, ?_, ?_⟩
  · rw [abs_of_nonneg (le_max_of_le_right (by norm_num))]
    exact max_le (by linarith [hx.2]) (by linarith)
  · have e1 := (A.rnd_near 1e-32).sub_le
    rw [abs_of_pos (by norm_num : (0:ℝ) < 1e-32)] at e1
    have e2 : Real.exp A.e - 1 ≤ Real.exp a - 1 := by linarith [Real.exp_le_exp.2 ha]
    refine (abs_max_sub_max_le_max _ _ _ _).trans (max_le ?_ ?_)
    · refine h.2.2.trans ?_
      exact mul_le_mul_of_nonneg_left (by linarith) g0
    · refine e1.trans ?_
      have := mul_le_mul_of_nonneg_left e2 (by norm_num : (0:ℝ) ≤ 1e-32)
      have := mul_nonneg g0 S0
      linarith

/-- A function with Lipschitz constant 1 and values in `[-1, 1]`, evaluated with error `v` at a rounded product. -/
theorem phase_near (A : CohFmt) {F F' : ℝ → ℝ} (hF : ∀ x y, |F x - F y| ≤ |x - y|) (h1 : ∀ x, |F x| ≤ 1) (he : ∀ t, |F' t - F t| ≤ A.v)
    {k r ρ : ℝ} (hρ : |k * r| ≤ ρ) : ScaleNear ((ρ + 1) * A.e) 1 (F (k * r)) (F' (A.mul k r)) := by
  have e0 := A.e_nonneg
  have r0 := (abs_nonneg _).trans hρ
  refine ⟨by positivity, h1 _, ?_⟩
  have a1 := (A.rnd_near (k * r)).sub_le
  have a2 := ScaleNear.exp_scale (a := A.e) (c := ρ + 1) (by linarith) e0
  have a3 : A.v ≤ Real.exp A.e - 1 := by
    have hp : 0 < 1 - A.v := by linarith [A.v1]
    have : Real.exp A.e = (1 - A.v)⁻¹ := by unfold Fmt.e; rw [Real.exp_neg, Real.exp_log hp]
    rw [this, le_sub_iff_add_le, ← one_div, le_div_iff₀ hp]
    nlinarith [A.v0]
  have a4 := he (A.mul k r)
  have a5 := hF (A.mul k r) (k * r)
  have a6 : |F' (A.mul k r) - F (k * r)| ≤ |F' (A.mul k r) - F (A.mul k r)| + |F (A.mul k r) - F (k * r)| := abs_sub_le _ _ _
  have a7 := mul_le_mul_of_nonneg_right hρ (ScaleNear.exp_sub_one_nonneg e0)
  change |A.mul k r - k * r| ≤ _ at a1
  linarith

theorem abs_cos_sub_le (x y : ℝ) : |Real.cos x - Real.cos y| ≤ |x - y| := by
  have := Real.lipschitzWith_cos.dist_le_mul x y
  simpa [Real.dist_eq] using this

theorem abs_sin_sub_le (x y : ℝ) : |Real.sin x - Real.sin y| ≤ |x - y| := by
  have := Real.lipschitzWith_sin.dist_le_mul x y
  simpa [Real.dist_eq] using this

/-- The quotient of the squared moduli. -/
theorem coh_quot {S q Y : ℝ} {z z' : ℂ} (hS : 0 < S) (hz : ‖z‖ ≤ S) (hq : |q - S| ≤ Y * S) (h1 : |z'.re - z.re| ≤ Y * S)
    (h2 : |z'.im - z.im| ≤ Y * S) (hY : Y ≤ 1 / 2) :
    |‖z'‖ ^ 2 / q ^ 2 - ‖z‖ ^ 2 / S ^ 2| ≤ 30 * Y ∧ ‖z'‖ ^ 2 / q ^ 2 ≤ 16 := by
  have Y0 : 0 ≤ Y := by
    by_contra h
    have := mul_neg_of_neg_of_pos (not_le.1 h) hS
    linarith [abs_nonneg (q - S)]
  have hYS : Y * S ≤ 1 / 2 * S := mul_le_mul_of_nonneg_right hY hS.le
  have hq2 : S / 2 ≤ q := by linarith [(abs_le.1 hq).1]
  have qp : 0 < q := by linarith
  have d : |‖z'‖ - ‖z‖| ≤ 2 * (Y * S) := by
    refine (abs_norm_sub_norm_le z' z).trans ((Complex.norm_le_abs_re_add_abs_im _).trans ?_)
    rw [Complex.sub_re, Complex.sub_im]
    linarith
  have n0 := norm_nonneg z
  have key : |‖z'‖ / q - ‖z‖ / S| ≤ 6 * Y := by
    have e1 : ‖z'‖ / q - ‖z‖ / S = (S * (‖z'‖ - ‖z‖) - ‖z‖ * (q - S)) / (q * S) := by field_simp; ring
    rw [e1, abs_div, abs_of_pos (mul_pos qp hS), div_le_iff₀ (mul_pos qp hS)]
    have m1 : |S * (‖z'‖ - ‖z‖)| ≤ S * (2 * (Y * S)) := by
      rw [abs_mul, abs_of_pos hS]; exact mul_le_mul_of_nonneg_left d hS.le
    have m2 : |‖z‖ * (q - S)| ≤ S * (Y * S) := by
      rw [abs_mul, abs_of_nonneg n0]; exact mul_le_mul hz hq (abs_nonneg _) hS.le
    have m3 : |S * (‖z'‖ - ‖z‖) - ‖z‖ * (q - S)| ≤ |S * (‖z'‖ - ‖z‖)| + |‖z‖ * (q - S)| := abs_sub _ _
    have m4 := mul_le_mul_of_nonneg_left hq2 (mul_nonneg Y0 hS.le)
    nlinarith
  have u0 : 0 ≤ ‖z‖ / S := by positivity
  have u1 : ‖z‖ / S ≤ 1 := (div_le_one hS).2 hz
  have w0 : 0 ≤ ‖z'‖ / q := by positivity
  obtain ⟨k1, k2⟩ := abs_le.1 key
  rw [← div_pow, ← div_pow]
  generalize ‖z'‖ / q = w at *
  generalize ‖z‖ / S = u at *
  constructor
  · have e2 : w ^ 2 - u ^ 2 = (w - u) * (w + u) := by ring
    rw [e2, abs_mul, abs_of_nonneg (by linarith : 0 ≤ w + u)]
    have := mul_le_mul key (show w + u ≤ 5 by linarith) (by linarith) (by linarith)
    linarith
  · have := mul_self_le_mul_self w0 (show w ≤ 4 by linarith)
    nlinarith

/-- Auto component of a tuple. -/
def Comp3.six : Comp3 → Fin 6
  | .u => 0
  | .v => 1
  | .w => 2

theorem cohAuto_raw (A : CohFmt) (sp : SpectrumChoice) (L M b : ℝ) (k : K3) (c : Comp3) :
    A.cohAuto sp L M b k c = A.cohFloor (A.fitRaw sp L M b k c.six) := by
  cases c <;> rfl

theorem cohDensity_six (p : OPSParams) (c : Comp3) (k1 k2 k3 : ℝ) : cohDensity p c k1 k2 k3 = max (fitSix p k1 k2 k3 c.six) 1e-32 := by
  cases c <;> rfl

/-- **C148** The coherence in rounded arithmetic.  Let the stored coherence grid be increasing with at least two points, `k1 > 0`, the
logarithms of the length scale and of the scaled distorted wavenumbers be at most `R`, the lifetimes at most `B` and computed with at
most `7 + R` units of error, the phases `k2 r` at most `ρ`, and the unit small compared with `1 / ((1+B)^2 (9+R))`.  Let `S c` be the
integral of component `c` over the grid and `Y = 513 (1+B)^4 (exp (((4 G + 940)(1+B)^2 (9+R) + 2 d + ρ) e) - 1)` times the sum of the
three integrals over `S c`.  If `Y ≤ 1/2`, then whatever the order in which torch adds (nested at most `d` deep), the computed
coherence differs from the exact one by at most `31 Y`. -/
theorem C148_coherence (A : CohFmt) (s : OPS) (hfin : s.params.LifetimeFinite) {g : List ℝ} (hs : s.cohGrid = some g)
    (hg : g.Pairwise (· < ·)) (h2 : 2 ≤ g.length) {k1 R B ρ r : ℝ} (hk : 0 < k1) (B0 : 0 ≤ B) (b : K3 → ℝ) (hL : |s.logL| ≤ R)
    (hpt : ∀ k2 ∈ g, ∀ k3 ∈ g,
      let β := (eddyLifetime s.hyp s.params.ty (Real.exp s.logL) (Real.exp s.logT) ⟨k1, k2, k3⟩).toReal
      |β| ≤ B ∧ LogNear ((7 + R) * A.e) β (b ⟨k1, k2, k3⟩) ∧
      |Real.log (Real.exp s.logL * Real.sqrt (k1 ^ 2 + k2 ^ 2 + (k3 + β * k1) ^ 2))| ≤ R)
    (hρ : ∀ k2 ∈ g, |k2 * r| ≤ ρ) (hK : 416 * ((1 + B) ^ 2 * (9 + R)) * A.e ≤ 1) :
    ∃ v : Comp3 → ℝ, (OPS.SpectralCoherence [k1] [r] s).1 = .ok [[[fin (v .u)]], [[fin (v .v)]], [[fin (v .w)]]] ∧
      ∀ c x d, A.CoherenceOf s.sp s.logL s.logM b g c k1 r x d →
        let S := fun c => quad23 g g (cohDensity s.params c k1)
        let Y := 513 * (1 + B) ^ 4 * (Real.exp (((4 * spectrumGain s.sp + 940) * ((1 + B) ^ 2 * (9 + R)) + 2 * d + ρ) * A.e) - 1) *
          ((S .u + S .v + S .w) / S c)
        Y ≤ 1 / 2 → |x - v c| ≤ 31 * Y := by
  have hgl : g.Pairwise (· ≤ ·) := hg.imp le_of_lt
  have hw := gridWidth_pos hg h2
  have hpos : ∀ c, 0 < quad23 g g (cohDensity s.params c k1) := by
    intro c
    refine lt_of_lt_of_le ?_ (quad23_ge hgl hgl fun x _ y _ => cohDensity_ge s.params c k1 x y)
    positivity
  refine ⟨fun c => ‖cohZ g g (cohDensity s.params c k1) r‖ ^ 2 / (quad23 g g (cohDensity s.params c k1)) ^ 2, ?_, ?_⟩
  · have hu : s.cohGridUsed = g := by unfold OPS.cohGridUsed; rw [hs]; rfl
    have he : ∀ c, cohEntry s.params g g c k1 r = _ := fun c =>
      cohEntry_fin s.params g g c k1 r _ (fun k2 _ k3 _ => cohPhi_spec s.params hfin hk.ne' c k2 k3) (hpos c)
    rw [coherence_eq, hu]
    simp only [List.map_cons, List.map_nil, he]
  rintro c x d ⟨q, re, im, hq, hre, him, rfl⟩
  simp only
  intro hY
  have e0 := A.e_nonneg
  have R0 := (abs_nonneg _).trans hL
  have ρ0 : 0 ≤ ρ := by
    obtain ⟨y, hy⟩ := List.exists_mem_of_length_pos (show 0 < g.length by omega)
    exact (abs_nonneg _).trans (hρ y hy)
  obtain ⟨Q, hQ⟩ : ∃ Q, Q = (1 + B) ^ 2 * (9 + R) := ⟨_, rfl⟩
  have B1 : 1 ≤ (1 + B) ^ 2 := one_le_pow₀ (by linarith)
  have B4 : 1 ≤ (1 + B) ^ 4 := one_le_pow₀ (by linarith)
  have Q9 : 9 + R ≤ Q := by rw [hQ]; exact le_mul_of_one_le_left (by linarith) B1
  have Q0 : 0 ≤ Q := by linarith
  have G0 : 0 ≤ spectrumGain s.sp := by unfold spectrumGain; split <;> positivity
  have Qe : 9 * A.e ≤ Q * A.e := mul_le_mul_of_nonneg_right (by linarith) e0
  have GQ : 0 ≤ spectrumGain s.sp * Q * A.e := by positivity
  obtain ⟨a, ha⟩ : ∃ a, a = ((4 * spectrumGain s.sp + 938) * Q) * A.e := ⟨_, rfl⟩
  have a0 : 0 ≤ a := by rw [ha]; positivity
  have ae : A.e ≤ a := by rw [ha]; linarith
  obtain ⟨f, hf⟩ : ∃ f : Comp3 → ℝ → ℝ → ℝ, f = fun c => cohDensity s.params c k1 := ⟨_, rfl⟩
  obtain ⟨tr, htr⟩ : ∃ tr : ℝ → ℝ → ℝ, tr = fun k2 k3 => f .u k2 k3 + f .v k2 k3 + f .w k2 k3 := ⟨_, rfl⟩
  obtain ⟨Φ, hΦ⟩ : ∃ Φ : ℝ → ℝ → ℝ, Φ = fun k2 k3 =>
    A.cohAuto s.sp (A.expF s.logL) (A.expF s.logM) (b ⟨k1, k2, k3⟩) ⟨k1, k2, k3⟩ c := ⟨_, rfl⟩
  have hfl : ∀ c k2 k3, 1e-32 ≤ f c k2 k3 := fun c k2 k3 => by rw [hf]; exact cohDensity_ge s.params c k1 k2 k3
  -- the density
  have dens : ∀ k2 ∈ g, ∀ k3 ∈ g, ScaleNear a (513 * (1 + B) ^ 4 * tr k2 k3) (f c k2 k3) (Φ k2 k3) := by
    intro k2 h2 k3 h3
    obtain ⟨g1, g2, g3⟩ := hpt k2 h2 k3 h3
    obtain ⟨t0, h4⟩ := fitRaw_point A.toShearFmt s.params hk B0 k2 k3 hL g1 g2 g3 hK c.six
    rw [← hQ] at h4
    have h5 := cohFloor_near A (h4.mono (b := a) (by rw [ha]; exact le_rfl) le_rfl) ae
    rw [hΦ, hf]
    simp only [cohAuto_raw, cohDensity_six]
    refine h5.mono le_rfl ?_
    have t1 : fitTrace s.params k1 k2 k3 ≤ tr k2 k3 := by
      rw [htr, hf]
      exact add_le_add (add_le_add (le_max_left _ _) (le_max_left _ _)) (le_max_left _ _)
    have t2 : 1e-32 ≤ tr k2 k3 := by
      rw [htr]
      have := hfl .u k2 k3
      have := hfl .v k2 k3
      have := hfl .w k2 k3
      change 1e-32 ≤ f .u k2 k3 + f .v k2 k3 + f .w k2 k3
      linarith
    have t3 := mul_le_mul_of_nonneg_left t1 (show 0 ≤ 512 * (1 + B) ^ 4 by positivity)
    have t4 := mul_le_mul_of_nonneg_right B4 (show 0 ≤ tr k2 k3 by linarith)
    linarith
  obtain ⟨T, hT⟩ : ∃ T, T = quad23 g g (f .u) + quad23 g g (f .v) + quad23 g g (f .w) := ⟨_, rfl⟩
  have etr : quad23 g g (fun k2 k3 => 513 * (1 + B) ^ 4 * tr k2 k3) = 513 * (1 + B) ^ 4 * T := by
    rw [hT, htr, ← quad23_add, ← quad23_add, ← quad23_smul]
  obtain ⟨ε, hε⟩ : ∃ ε, ε = ((4 * spectrumGain s.sp + 940) * Q + 2 * d + ρ) * A.e := ⟨_, rfl⟩
  obtain ⟨S, hS⟩ : ∃ S, S = quad23 g g (f c) := ⟨_, rfl⟩
  have hSf : ∀ c, quad23 g g (cohDensity s.params c k1) = quad23 g g (f c) := fun c => by rw [hf]
  simp only [hSf] at hY ⊢
  rw [← hQ, ← hε, ← hT, ← hS] at hY
  rw [← hQ, ← hε, ← hT, ← hS]
  have hfp : ∀ c, 0 < quad23 g g (f c) := fun c => by rw [← hSf]; exact hpos c
  have Sp : 0 < S := by rw [hS]; exact hfp c
  have ST : S ≤ T := by
    rw [hS, hT]
    have := hfp .u
    have := hfp .v
    have := hfp .w
    cases c <;> linarith
  obtain ⟨Y, hYd⟩ : ∃ Y, Y = 513 * (1 + B) ^ 4 * (Real.exp ε - 1) * (T / S) := ⟨_, rfl⟩
  rw [← hYd] at hY ⊢
  have YS : (Real.exp ε - 1) * (513 * (1 + B) ^ 4 * T) = Y * S := by rw [hYd]; field_simp
  have de : 0 ≤ (d:ℝ) * A.e := by positivity
  have ρe : 0 ≤ ρ * A.e := by positivity
  have ε5 : 5 * A.e ≤ ε := by rw [hε]; linarith
  have ε0 : 0 ≤ ε := by linarith
  -- integrals
  have h0 : |q - S| ≤ Y * S := by
    have h1 := (quad23Of_scale (A := A.toFmt) hgl a0 dens (by rw [hΦ]; exact hq)).mono (b := ε) (by rw [ha, hε]; linarith) le_rfl
    rw [etr, ← hS] at h1
    rw [← YS]
    exact h1.2.2
  have hc : ∀ {F F' : ℝ → ℝ} {z : ℝ}, (∀ x y, |F x - F y| ≤ |x - y|) → (∀ x, |F x| ≤ 1) → (∀ t, |F' t - F t| ≤ A.v) →
      A.Quad23Of g g (fun k2 k3 => A.mul (Φ k2 k3) (F' (A.mul k2 r))) z d →
      |z - quad23 g g (fun k2 k3 => f c k2 k3 * F (k2 * r))| ≤ Y * S := by
    intro F F' z l1 l2 l3 hz
    have h1 := (quad23Of_scale (A := A.toFmt) (f := fun k2 k3 => f c k2 k3 * F (k2 * r)) (a := a + (ρ + 1) * A.e + A.e)
      (S := fun k2 k3 => 513 * (1 + B) ^ 4 * tr k2 k3) hgl (by positivity)
      (fun k2 m2 k3 m3 => by
        have := ((dens k2 m2 k3 m3).mul (phase_near A l1 l2 l3 (hρ k2 m2))).rnd A.toFmt
        rw [mul_one] at this
        exact this) hz).mono (b := ε) (by rw [ha, hε]; linarith) le_rfl
    rw [etr] at h1
    rw [← YS]
    exact h1.2.2
  have hre' := hc abs_cos_sub_le Real.abs_cos_le_one A.cos_err (by rw [hΦ]; exact hre)
  have him' := hc abs_sin_sub_le Real.abs_sin_le_one A.sin_err (by rw [hΦ]; exact him)
  have hz : ‖cohZ g g (f c) r‖ ≤ S := by
    rw [hS]
    refine quad23_norm_le hgl hgl fun x _ y _ => ?_
    rw [norm_mul, norm_phase, mul_one, Complex.norm_real, Real.norm_eq_abs, abs_of_nonneg]
    exact le_trans (by norm_num) (hfl c x y)
  have hzz := cohZ_re g (f c) r
  obtain ⟨k3, k4⟩ := coh_quot (z' := ⟨re, im⟩) (z := cohZ g g (f c) r) Sp hz h0 (by rw [hzz]; exact hre') (by rw [hzz]; exact him') hY
  have hf' : cohDensity s.params c k1 = f c := by rw [hf]
  rw [hf']
  -- the last operations
  have n1 : LogNear A.e ‖(⟨re, im⟩ : ℂ)‖ (A.hypotF re im) := by
    have e1 : ‖(⟨re, im⟩ : ℂ)‖ = Real.sqrt (re ^ 2 + im ^ 2) := by
      rw [Complex.norm_def, Complex.normSq_mk]; congr 1; ring
    rw [e1]
    refine LogNear.of_rel A.v0 A.v1 ?_
    rw [abs_of_nonneg (Real.sqrt_nonneg _)]
    exact A.hypot_err re im
  have n2 := A.div_near (A.sq_near n1) (A.sq_near (LogNear.refl |q|))
  rw [abs_mul_abs_self, ← pow_two, ← pow_two] at n2
  have n3 := n2.sub_le
  rw [abs_of_nonneg (show 0 ≤ ‖(⟨re, im⟩ : ℂ)‖ ^ 2 / q ^ 2 by positivity)] at n3
  have n4 : Real.exp (2 * A.e + A.e + (2 * 0 + A.e) + A.e) - 1 ≤ Real.exp ε - 1 :=
    sub_le_sub_right (Real.exp_le_exp.2 (by linarith)) 1
  have x0 := ScaleNear.exp_sub_one_nonneg ε0
  have n5 : 513 * (Real.exp ε - 1) ≤ Y := by
    rw [hYd]
    have := mul_le_mul_of_nonneg_right B4 x0
    have t1 : 1 ≤ T / S := (one_le_div Sp).2 ST
    have := le_mul_of_one_le_right (show 0 ≤ 513 * (1 + B) ^ 4 * (Real.exp ε - 1) by positivity) t1
    linarith
  have n6 := mul_le_mul k4 n4 (ScaleNear.exp_sub_one_nonneg (by linarith)) (by norm_num)
  have n7 : |A.div (A.sq (A.hypotF re im)) (A.sq |q|) - ‖cohZ g g (f c) r‖ ^ 2 / S ^ 2| ≤ _ :=
    abs_sub_le _ (‖(⟨re, im⟩ : ℂ)‖ ^ 2 / q ^ 2) _
  linarith

theorem exactC_e : CohFmt.exact.e = 0 := exactS_e

theorem grid_bound (g : List ℝ) (F : ℝ → ℝ → ℝ) : ∃ M, 0 ≤ M ∧ ∀ x ∈ g, ∀ y ∈ g, F x y ≤ M := by
  obtain ⟨M, hM⟩ := ((g.finite_toSet.prod g.finite_toSet).image fun q : ℝ × ℝ => F q.1 q.2).bddAbove
  exact ⟨max M 0, le_max_right _ _, fun x hx y hy => le_max_of_le_left (hM ⟨(x, y), ⟨hx, hy⟩, rfl⟩)⟩

/-- **C148** In exact arithmetic the rounded model is the model: the values are those that `SpectralCoherence` returns. -/
theorem C148_exact (s : OPS) (hfin : s.params.LifetimeFinite) {g : List ℝ} (hs : s.cohGrid = some g) (hg : g.Pairwise (· < ·))
    (h2 : 2 ≤ g.length) {k1 r : ℝ} (hk : 0 < k1) {x : Comp3 → ℝ} {d : ℕ} (hx : ∀ c, CohFmt.exact.CoherenceOf s.sp s.logL s.logM
      (fun k => (eddyLifetime s.hyp s.params.ty (Real.exp s.logL) (Real.exp s.logT) k).toReal) g c k1 r (x c) d) :
    (OPS.SpectralCoherence [k1] [r] s).1 = .ok [[[fin (x .u)]], [[fin (x .v)]], [[fin (x .w)]]] := by
  have e0 := exactC_e
  obtain ⟨B, B0, hB⟩ := grid_bound g fun k2 k3 =>
    |(eddyLifetime s.hyp s.params.ty (Real.exp s.logL) (Real.exp s.logT) ⟨k1, k2, k3⟩).toReal|
  obtain ⟨R, R0, hR⟩ := grid_bound g fun k2 k3 => |Real.log (Real.exp s.logL * Real.sqrt (k1 ^ 2 + k2 ^ 2 +
    (k3 + (eddyLifetime s.hyp s.params.ty (Real.exp s.logL) (Real.exp s.logT) ⟨k1, k2, k3⟩).toReal * k1) ^ 2))|
  obtain ⟨ρ, -, hρ⟩ := grid_bound g fun k2 _ => |k2 * r|
  obtain ⟨v, h1, h3⟩ := C148_coherence CohFmt.exact s hfin hs hg h2 (R := max R |s.logL|) (B := B) (ρ := ρ) (r := r) hk B0
    (fun k => (eddyLifetime s.hyp s.params.ty (Real.exp s.logL) (Real.exp s.logT) k).toReal) (le_max_right _ _)
    (fun k2 m2 k3 m3 => ⟨hB k2 m2 k3 m3, by rw [e0, mul_zero]; exact LogNear.refl _, (hR k2 m2 k3 m3).trans (le_max_left _ _)⟩)
    (fun k2 m2 => hρ k2 m2 k2 m2) (by rw [e0]; simp)
  have h4 : ∀ c, x c = v c := by
    intro c
    have h5 := h3 c (x c) d (hx c)
    simp only [e0, mul_zero, Real.exp_zero, sub_self, zero_mul] at h5
    exact sub_eq_zero.1 (abs_eq_zero.1 (le_antisymm (h5 (by norm_num)) (abs_nonneg _)))
  rw [h1, h4, h4, h4]

/-- Adding one term after another is an admissible order: there are always results, nested as deep as the grid has intervals. -/
example (A : CohFmt) (sp : SpectrumChoice) (logL logM : ℝ) (b : K3 → ℝ) (g : List ℝ) (c : Comp3) (k1 r : ℝ) :
    ∃ x, A.CoherenceOf sp logL logM b g c k1 r x (g.length - 1) := by
  have h : ∀ f : ℝ → ℝ, ∃ t, A.TrapzOf g (g.map f) t (g.length - 1) := by
    intro f
    obtain ⟨s, hs⟩ := Summation.foldl (A := A.toFmt) (A.trapzTerms g (g.map f))
    rw [trapzTerms_length] at hs
    exact ⟨_, s, hs, rfl⟩
  choose t ht using h
  have h' : ∀ f : ℝ → ℝ → ℝ, ∃ q, A.Quad23Of g g f q (g.length - 1) := fun f =>
    ⟨_, fun k2 => t (f k2), fun k2 _ => ht _, ht _⟩
  obtain ⟨q, hq⟩ := h' fun k2 k3 => A.cohAuto sp (A.expF logL) (A.expF logM) (b ⟨k1, k2, k3⟩) ⟨k1, k2, k3⟩ c
  obtain ⟨re, hre⟩ := h' fun k2 k3 => A.mul (A.cohAuto sp (A.expF logL) (A.expF logM) (b ⟨k1, k2, k3⟩) ⟨k1, k2, k3⟩ c)
    (A.cosF (A.mul k2 r))
  obtain ⟨im, him⟩ := h' fun k2 k3 => A.mul (A.cohAuto sp (A.expF logL) (A.expF logM) (b ⟨k1, k2, k3⟩) ⟨k1, k2, k3⟩ c)
    (A.sinF (A.mul k2 r))
  exact ⟨_, q, re, im, hq, hre, him, rfl⟩

/-- Double precision with library functions within four units in the last place: for lifetimes up to 1, scaled wavenumbers between
`1e-4` and `1e4`, phases up to `1e4`, sums nested at most 201 deep and a component that carries a tenth of the sum of the integrals
the bound of `C148_coherence` is 0.0002. -/
example (A : CohFmt) (hv : A.v ≤ 1 / 2 ^ 51) : (416 * ((1 + 1) ^ 2 * (9 + 10)) * A.e ≤ 1) ∧
    31 * (513 * (1 + 1) ^ 4 * (Real.exp (((4 * spectrumGain .vkLike + 940) * ((1 + 1) ^ 2 * (9 + 10)) + 2 * (201:ℕ) + 1e4) * A.e) - 1) *
      10) ≤ 0.0002 := by
  have h := A.e_le
  have h1 : A.v / (1 - A.v) ≤ 4.5e-16 := by
    rw [div_le_iff₀ (by linarith)]
    linarith
  have h2 : A.e ≤ 4.5e-16 := h.trans h1
  have e0 := A.e_nonneg
  refine ⟨by linarith, ?_⟩
  obtain ⟨y, hy⟩ : ∃ y, y = ((4 * spectrumGain .vkLike + 940) * ((1 + 1) ^ 2 * (9 + 10)) + 2 * (201:ℕ) + 1e4) * A.e := ⟨_, rfl⟩
  rw [← hy]
  unfold spectrumGain at hy
  push_cast at hy
  have y0 : 0 ≤ y := by linarith
  have y1 : y ≤ 3.9e-11 := by linarith
  have h3 := ScaleNear.exp_sub_one_le y0 (by linarith)
  linarith

end
end Verif
