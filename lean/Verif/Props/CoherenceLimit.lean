import Verif.Props.Coherence
import Verif.Props.Convergence
import Mathlib.Analysis.Fourier.RiemannLebesgueLemma

/-!
# Limits of the coherence: C96
-/

namespace Verif
open Fl Filter Topology MeasureTheory

noncomputable section

/-- Coherence at separation `r` of a density over the square of half width `a`: squared modulus of the integral of
`f(k2, k3) exp(i k2 r)` over the square of the integral of `f`. -/
def Spec.coherence (a : ℝ) (f : ℝ → ℝ → ℝ) (r : ℝ) : ℝ :=
  ((Spec.square a fun k2 k3 => f k2 k3 * Real.cos (k2 * r)) ^ 2 + (Spec.square a fun k2 k3 => f k2 k3 * Real.sin (k2 * r)) ^ 2) /
    (Spec.square a f) ^ 2

/-- Diagonal index of a component. -/
def Comp3.idx : Comp3 → Fin 3
  | .u => 0
  | .v => 1
  | .w => 2

/-- The density of component `c`: the textbook tensor cut below at `1e-32`. -/
def Spec.cohDensity (p : OPSParams) (c : Comp3) (k1 k2 k3 : ℝ) : ℝ := max (Spec.fitTensor p k1 k2 k3 c.idx c.idx) 1e-32

theorem cohPhi_spec (p : OPSParams) (hp : p.LifetimeFinite) {k1 : ℝ} (hk : k1 ≠ 0) (c : Comp3) (k2 k3 : ℝ) :
    c.sel (cohPhi p ⟨k1, k2, k3⟩) = fin (Spec.cohDensity p c k1 k2 k3) := by
  obtain ⟨b, hb⟩ := hp ⟨k1, k2, k3⟩ hk
  have h4 : (4 * Real.pi) ≠ 0 := by positivity
  unfold cohPhi
  simp only [hb, energyE0_spec p.L_pos (kk0R_pos (k := ⟨k1, k2, k3⟩) (b := b) hk), fin_div_fin _ h4]
  rw [phiRaw_sheared (k := ⟨k1, k2, k3⟩) hk]
  have e : ∀ i j, Spec.shearedTensor (Spec.energyOf p.L p.M p.sp) (K3.vec ⟨k1, k2, k3⟩) b i j = Spec.fitTensor p k1 k2 k3 i j := by
    intro i j
    unfold Spec.fitTensor
    rw [hb, toReal_fin]; rfl
  cases c <;> simp only [e, phiFloor, floorEps_max, Comp3.sel, Spec.cohDensity, Comp3.idx]

theorem cohDensity_cont (p : OPSParams) (hp : p.LifetimeContinuous) {k1 : ℝ} (hk : k1 ≠ 0) (c : Comp3) :
    Continuous fun q : ℝ × ℝ => Spec.cohDensity p c k1 q.1 q.2 :=
  (fitTensor_cont p hp hk c.idx c.idx).max continuous_const

theorem cohDensity_ge (p : OPSParams) (c : Comp3) (k1 k2 k3 : ℝ) : 1e-32 ≤ Spec.cohDensity p c k1 k2 k3 := le_max_right _ _

theorem trapz_scale {L : ℝ} (g : List ℝ) (ys : List ℝ) : trapz (g.map fun x => x / L) ys = 1 / L * trapz g ys := by
  induction g generalizing ys with
  | nil => simp [trapz]
  | cons x g ih =>
    cases g with
    | nil => cases ys with
      | nil => simp [trapz]
      | cons y ys => simp [trapz]
    | cons x' g => cases ys with
      | nil => simp [trapz]
      | cons y ys => cases ys with
        | nil => simp [trapz]
        | cons y' ys =>
          have := ih (y' :: ys)
          simp only [List.map_cons] at this ⊢
          simp only [trapz, this, smul_eq_mul]
          ring

theorem trapz_map_const_mul (c : ℝ) (g : List ℝ) (f : ℝ → ℝ) : trapz g (g.map fun x => c * f x) = c * trapz g (g.map f) := by
  induction g with
  | nil => simp [trapz]
  | cons x g ih =>
    cases g with
    | nil => simp [trapz]
    | cons x' g =>
      simp only [List.map_cons] at ih ⊢
      simp only [trapz, ih, smul_eq_mul]
      ring

theorem quad23_scale {L : ℝ} (g : List ℝ) (f : ℝ → ℝ → ℝ) :
    quad23 (g.map fun x => x / L) (g.map fun x => x / L) f = 1 / L * (1 / L * quad23 g g fun x y => f (x / L) (y / L)) := by
  unfold quad23
  rw [trapz_scale, List.map_map]
  congr 1
  rw [← trapz_map_const_mul]
  congr 1
  apply List.map_congr_left
  intro x _
  simp only [Function.comp]
  rw [trapz_scale, List.map_map]
  rfl

theorem square_scale {L : ℝ} (hL : 0 < L) (a : ℝ) (f : ℝ → ℝ → ℝ) :
    Spec.square (a / L) f = 1 / L * (1 / L * Spec.square a fun x y => f (x / L) (y / L)) := by
  unfold Spec.square
  have h : ∀ g : ℝ → ℝ, ∫ x in (-(a / L))..(a / L), g x = 1 / L * ∫ x in (-a)..a, g (x / L) := by
    intro g
    rw [intervalIntegral.integral_comp_div _ hL.ne', neg_div, smul_eq_mul, ← mul_assoc, one_div_mul_cancel hL.ne', one_mul]
  rw [h]
  congr 1
  rw [← intervalIntegral.integral_const_mul]
  simp only [h]

/-- Convergence of the double sum on the coherence grid. -/
theorem quad23_refine_scaled {f : ℝ → ℝ → ℝ} (hf : Continuous fun q : ℝ × ℝ => f q.1 q.2) (p2 : ℝ) {L : ℝ} (hL : 0 < L) {e : ℝ}
    (he : 0 < e) : ∃ P, ∀ p1 < P, ∃ N, ∀ n ≥ N,
      |quad23 ((opsGrid p1 p2 n).map fun x => x / L) ((opsGrid p1 p2 n).map fun x => x / L) f -
        Spec.square ((10:ℝ) ^ p2 / L) f| ≤ e := by
  have hc : Continuous fun q : ℝ × ℝ => f (q.1 / L) (q.2 / L) :=
    hf.comp ((continuous_fst.div_const L).prodMk (continuous_snd.div_const L))
  obtain ⟨P, h⟩ := quad23_refine (f := fun x y => f (x / L) (y / L)) hc p2 (e := L * L * e) (by positivity)
  refine ⟨P, fun p1 hp => ?_⟩
  obtain ⟨N, h⟩ := h p1 hp
  refine ⟨N, fun n hn => ?_⟩
  rw [quad23_scale, square_scale hL, ← mul_sub, ← mul_sub, abs_mul, abs_mul, abs_of_pos (by positivity : 0 < 1 / L)]
  have := h n hn
  calc 1 / L * (1 / L * _) ≤ 1 / L * (1 / L * (L * L * e)) := by gcongr
    _ = e := by field_simp

theorem cohZ_re (g : List ℝ) (f : ℝ → ℝ → ℝ) (r : ℝ) : cohZ g g f r =
    ⟨quad23 g g fun k2 k3 => f k2 k3 * Real.cos (k2 * r), quad23 g g fun k2 k3 => f k2 k3 * Real.sin (k2 * r)⟩ := by
  have e : ∀ k2 k3, (f k2 k3 : ℂ) * phase (k2 * r) = ⟨f k2 k3 * Real.cos (k2 * r), f k2 k3 * Real.sin (k2 * r)⟩ := by
    intro k2 k3
    unfold phase
    rw [Complex.exp_mul_I, ← Complex.ofReal_cos, ← Complex.ofReal_sin]
    apply Complex.ext
    · simp [-Complex.ofReal_cos, -Complex.ofReal_sin]
    · simp [-Complex.ofReal_cos, -Complex.ofReal_sin]
  unfold cohZ
  simp only [e]
  apply Complex.ext
  · exact (quad23_map (fun z : ℂ => z.re) (by simp) (by simp) (by simp) g g _).symm
  · exact (quad23_map (fun z : ℂ => z.im) (by simp) (by simp) (by simp) g g _).symm

theorem square_pos {f : ℝ → ℝ → ℝ} (hf : Continuous fun q : ℝ × ℝ => f q.1 q.2) {a c : ℝ} (ha : 0 < a) (hc : 0 < c)
    (h : ∀ x y, c ≤ f x y) : 0 < Spec.square a f := by
  have haa : -a ≤ a := by linarith
  have inner : Continuous fun x => ∫ y in (-a)..a, f x y :=
    intervalIntegral.continuous_parametric_intervalIntegral_of_continuous' hf (-a) a
  have col : ∀ x, Continuous fun y => f x y := fun x => hf.comp (Continuous.prodMk_right x)
  have lo : ∀ x, c * (2 * a) ≤ ∫ y in (-a)..a, f x y := by
    intro x
    have := intervalIntegral.integral_mono_on (μ := volume) (f := fun _ => c) haa
      (continuous_const.intervalIntegrable _ _) ((col x).intervalIntegrable _ _) fun y _ => h x y
    rw [intervalIntegral.integral_const, smul_eq_mul] at this
    linarith
  have := intervalIntegral.integral_mono_on (μ := volume) (f := fun _ => c * (2 * a)) haa
    (continuous_const.intervalIntegrable _ _) (inner.intervalIntegrable _ _) fun x _ => lo x
  rw [intervalIntegral.integral_const, smul_eq_mul] at this
  unfold Spec.square
  have h0 : 0 < (a - -a) * (c * (2 * a)) := by
    have : 0 < a - -a := by linarith
    positivity
  linarith

/-- **C96** Refining the coherence grid on a fixed domain brings every value of the coherence as close as desired to the coherence of
the textbook tensor (cut below at `1e-32`) over the square `|k2|, |k3| ≤ 10^p2 / L0`. -/
theorem C96_refinement (s : OPS) (hc : s.params.LifetimeContinuous) (p2 : ℝ) {L0 : ℝ} (hL : 0 < L0) {k1 : ℝ} (hk : 0 < k1)
    (r : ℝ) {e : ℝ} (he : 0 < e) :
    ∃ P, ∀ p1 < P, ∃ N, ∀ n ≥ N, ∃ u v w : ℝ,
      (OPS.SpectralCoherence [k1] [r] { s with cohGrid := some ((opsGrid p1 p2 n).map fun x => x / L0) }).1 =
        .ok [[[fin u]], [[fin v]], [[fin w]]] ∧
      let C := fun c => Spec.coherence ((10:ℝ) ^ p2 / L0) (Spec.cohDensity s.params c k1) r
      |u - C .u| ≤ e ∧ |v - C .v| ≤ e ∧ |w - C .w| ≤ e := by
  have hfin := lifetimeFinite_of_continuous hc
  set a := (10:ℝ) ^ p2 / L0 with hadef
  have ha : 0 < a := by positivity
  have key : ∀ c : Comp3, ∃ P, ∀ p1 < P, ∃ N, ∀ n ≥ N, ∃ x : ℝ,
      cohEntry s.params ((opsGrid p1 p2 n).map fun x => x / L0) ((opsGrid p1 p2 n).map fun x => x / L0) c k1 r = fin x ∧
      |x - Spec.coherence a (Spec.cohDensity s.params c k1) r| ≤ e := by
    intro c
    set f := Spec.cohDensity s.params c k1 with hf
    have cf : Continuous fun q : ℝ × ℝ => f q.1 q.2 := cohDensity_cont s.params hc hk.ne' c
    have cc : Continuous fun q : ℝ × ℝ => f q.1 q.2 * Real.cos (q.1 * r) := by fun_prop
    have cs : Continuous fun q : ℝ × ℝ => f q.1 q.2 * Real.sin (q.1 * r) := by fun_prop
    have hI : 0 < Spec.square a f := square_pos cf ha (by norm_num) fun x y => cohDensity_ge s.params c k1 x y
    set A := Spec.square a fun k2 k3 => f k2 k3 * Real.cos (k2 * r) with hA
    set B := Spec.square a fun k2 k3 => f k2 k3 * Real.sin (k2 * r) with hB
    set I := Spec.square a f with hIdef
    have hcont : ContinuousAt (fun q : ℝ × ℝ × ℝ => (q.1 ^ 2 + q.2.1 ^ 2) / q.2.2 ^ 2) (A, B, I) := by
      refine ContinuousAt.div (by fun_prop) (by fun_prop) ?_
      simp only
      positivity
    obtain ⟨d, hd, hd'⟩ := Metric.continuousAt_iff.1 hcont e he
    have hd2 : 0 < min (d / 2) (I / 2) := by positivity
    obtain ⟨P1, h1⟩ := quad23_refine_scaled (f := fun k2 k3 => f k2 k3 * Real.cos (k2 * r)) cc p2 hL hd2
    obtain ⟨P2, h2⟩ := quad23_refine_scaled (f := fun k2 k3 => f k2 k3 * Real.sin (k2 * r)) cs p2 hL hd2
    obtain ⟨P3, h3⟩ := quad23_refine_scaled (f := f) cf p2 hL hd2
    refine ⟨min P1 (min P2 P3), fun p1 hp => ?_⟩
    simp only [lt_min_iff] at hp
    obtain ⟨N1, h1⟩ := h1 p1 hp.1
    obtain ⟨N2, h2⟩ := h2 p1 hp.2.1
    obtain ⟨N3, h3⟩ := h3 p1 hp.2.2
    refine ⟨max N1 (max N2 N3), fun n hn => ?_⟩
    simp only [ge_iff_le, max_le_iff] at hn
    have h1 := h1 n hn.1
    have h2 := h2 n hn.2.1
    have h3 := h3 n hn.2.2
    set g := (opsGrid p1 p2 n).map fun x => x / L0 with hg
    have hq : 0 < quad23 g g f := by
      have := (abs_le.1 (h3.trans (min_le_right _ _))).1
      linarith
    refine ⟨_, cohEntry_fin s.params g g c k1 r f (fun k2 _ k3 _ => cohPhi_spec s.params hfin hk.ne' c k2 k3) hq, ?_⟩
    have hlt : ∀ {x y : ℝ}, |x - y| ≤ min (d / 2) (I / 2) → |x - y| < d := fun h => lt_of_le_of_lt (h.trans (min_le_left _ _)) (by linarith)
    have := hd' (x := (quad23 g g fun k2 k3 => f k2 k3 * Real.cos (k2 * r), quad23 g g fun k2 k3 => f k2 k3 * Real.sin (k2 * r),
      quad23 g g f)) (by
        simp only [Prod.dist_eq, Real.dist_eq, max_lt_iff]
        exact ⟨hlt h1, hlt h2, hlt h3⟩)
    rw [Real.dist_eq] at this
    unfold Spec.coherence
    rw [cohZ_re, ← Complex.normSq_eq_norm_sq, Complex.normSq_mk]
    simp only [← sq]
    exact this.le
  obtain ⟨P1, h1⟩ := key .u
  obtain ⟨P2, h2⟩ := key .v
  obtain ⟨P3, h3⟩ := key .w
  refine ⟨min P1 (min P2 P3), fun p1 hp => ?_⟩
  simp only [lt_min_iff] at hp
  obtain ⟨N1, h1⟩ := h1 p1 hp.1
  obtain ⟨N2, h2⟩ := h2 p1 hp.2.1
  obtain ⟨N3, h3⟩ := h3 p1 hp.2.2
  refine ⟨max N1 (max N2 N3), fun n hn => ?_⟩
  simp only [ge_iff_le, max_le_iff] at hn
  obtain ⟨x, ex, hx⟩ := h1 n hn.1
  obtain ⟨y, ey, hy⟩ := h2 n hn.2.1
  obtain ⟨z, ez, hz⟩ := h3 n hn.2.2
  refine ⟨x, y, z, ?_, hx, hy, hz⟩
  rw [coherence_eq]
  have hparams : ({ s with cohGrid := some ((opsGrid p1 p2 n).map fun x => x / L0) } : OPS).params = s.params := rfl
  have hgrid : ({ s with cohGrid := some ((opsGrid p1 p2 n).map fun x => x / L0) } : OPS).cohGridUsed =
    (opsGrid p1 p2 n).map fun x => x / L0 := rfl
  rw [hparams, hgrid]
  simp only [List.map_cons, List.map_nil, ex, ey, ez]

/-- **C96** The coherence of the tensor itself tends to zero for large separations in either direction. -/
theorem C96_decay (p : OPSParams) (hc : p.LifetimeContinuous) {k1 : ℝ} (hk : k1 ≠ 0) (c : Comp3) {a : ℝ} (ha : 0 ≤ a) :
    Tendsto (Spec.coherence a (Spec.cohDensity p c k1)) (cocompact ℝ) (𝓝 0) := by
  set f := Spec.cohDensity p c k1 with hf
  have cf : Continuous fun q : ℝ × ℝ => f q.1 q.2 := cohDensity_cont p hc hk c
  set G : ℝ → ℝ := fun x => ∫ y in (-a)..a, f x y with hG
  have cG : Continuous G := intervalIntegral.continuous_parametric_intervalIntegral_of_continuous' cf (-a) a
  set F : ℝ → ℂ := (Set.Ioc (-a) a).indicator fun x => (G x : ℂ) with hF
  set H : ℝ → ℂ := fun w => ∫ v : ℝ, Real.fourierChar (-(v * w)) • F v with hH
  have hlim : Tendsto H (cocompact ℝ) (𝓝 0) := Real.tendsto_integral_exp_smul_cocompact F
  have haa : -a ≤ a := by linarith
  have hpi := Real.pi_pos
  have key : ∀ r, H (r * (2 * Real.pi)⁻¹) = ⟨Spec.square a fun k2 k3 => f k2 k3 * Real.cos (k2 * r),
      -(Spec.square a fun k2 k3 => f k2 k3 * Real.sin (k2 * r))⟩ := by
    intro r
    have e1 : H (r * (2 * Real.pi)⁻¹) = ∫ v in (-a)..a, (⟨G v * Real.cos (v * r), -(G v * Real.sin (v * r))⟩ : ℂ) := by
      rw [intervalIntegral.integral_of_le haa, ← integral_indicator measurableSet_Ioc]
      simp only [hH]
      congr 1
      funext v
      by_cases hv : v ∈ Set.Ioc (-a) a
      · rw [hF, Set.indicator_of_mem hv, Set.indicator_of_mem hv, Circle.smul_def, Real.fourierChar_apply, smul_eq_mul]
        have : ((2 * Real.pi * -(v * (r * (2 * Real.pi)⁻¹)) : ℝ) : ℂ) * Complex.I = ((-(v * r) : ℝ) : ℂ) * Complex.I := by
          congr 2
          field_simp
        rw [this, Complex.exp_mul_I, ← Complex.ofReal_cos, ← Complex.ofReal_sin, Real.cos_neg, Real.sin_neg]
        apply Complex.ext
        · simp [-Complex.ofReal_cos, -Complex.ofReal_sin]; ring
        · simp [-Complex.ofReal_cos, -Complex.ofReal_sin]; ring
      · rw [hF, Set.indicator_of_notMem hv, Set.indicator_of_notMem hv, smul_zero]
    have e2 : ∀ v : ℝ, (⟨G v * Real.cos (v * r), -(G v * Real.sin (v * r))⟩ : ℂ) =
        ((G v * Real.cos (v * r) : ℝ) : ℂ) + ((-(G v * Real.sin (v * r)) : ℝ) : ℂ) * Complex.I := by
      intro v
      rw [← Complex.mk_eq_add_mul_I]
    have c1 : Continuous fun v => G v * Real.cos (v * r) := by fun_prop
    have c2 : Continuous fun v => -(G v * Real.sin (v * r)) := by fun_prop
    rw [e1]
    simp only [e2]
    rw [intervalIntegral.integral_add, intervalIntegral.integral_mul_const, intervalIntegral.integral_ofReal,
      intervalIntegral.integral_ofReal, ← Complex.mk_eq_add_mul_I, intervalIntegral.integral_neg]
    · unfold Spec.square
      simp only [intervalIntegral.integral_mul_const, hG]
    · exact (Complex.continuous_ofReal.comp c1).intervalIntegrable _ _
    · exact ((Complex.continuous_ofReal.comp c2).mul continuous_const).intervalIntegrable _ _
  have hnorm : ∀ r, Spec.coherence a f r = ‖H (r * (2 * Real.pi)⁻¹)‖ ^ 2 / (Spec.square a f) ^ 2 := by
    intro r
    unfold Spec.coherence
    rw [key, ← Complex.normSq_eq_norm_sq, Complex.normSq_mk]
    ring
  have h2 : Tendsto (fun r => ‖H (r * (2 * Real.pi)⁻¹)‖ ^ 2 / (Spec.square a f) ^ 2) (cocompact ℝ) (𝓝 (‖(0:ℂ)‖ ^ 2 / (Spec.square a f) ^ 2)) :=
    ((hlim.comp (tendsto_cocompact_mul_right₀ (by positivity))).norm.pow 2).div_const _
  rw [norm_zero, zero_pow two_ne_zero, zero_div] at h2
  exact h2.congr fun r => (hnorm r).symm

/-- Finitely many oscillations return simultaneously to their start, arbitrarily late. -/
theorem phase_recurrent (g : List ℝ) {δ : ℝ} (hδ : 0 < δ) (R : ℝ) : ∃ r > R, ∀ k ∈ g, ‖phase (k * r) - 1‖ ≤ δ := by
  set T := |R| + 1 with hT
  have hT1 : 1 ≤ T := by have := abs_nonneg R; linarith
  let x : ℕ → Fin g.length → ℂ := fun m j => phase (g.get j * (m * T))
  have hx : ∀ m, x m ∈ Metric.closedBall (0 : Fin g.length → ℂ) 1 := by
    intro m
    rw [mem_closedBall_zero_iff, pi_norm_le_iff_of_nonneg zero_le_one]
    exact fun j => (norm_phase _).le
  obtain ⟨l, -, φ, hφ, hl⟩ := (isCompact_closedBall (0 : Fin g.length → ℂ) 1).tendsto_subseq hx
  obtain ⟨N, hN⟩ := Metric.cauchySeq_iff.1 hl.cauchySeq δ hδ
  have hd := hN (N + 1) (Nat.le_succ N) N le_rfl
  have hlt : φ N < φ (N + 1) := hφ (Nat.lt_succ_self N)
  refine ⟨((φ (N + 1) : ℝ) - φ N) * T, ?_, ?_⟩
  · have h1 : (1:ℝ) ≤ (φ (N + 1) : ℝ) - φ N := by
      have : (φ N : ℝ) + 1 ≤ φ (N + 1) := by exact_mod_cast hlt
      linarith
    have := le_abs_self R
    nlinarith
  · intro k hk
    obtain ⟨j, rfl⟩ := List.get_of_mem hk
    have hj : dist (x (φ (N + 1)) j) (x (φ N) j) < δ := lt_of_le_of_lt (dist_le_pi_dist _ _ j) hd
    have e : phase (g.get j * (((φ (N + 1) : ℝ) - φ N) * T)) - 1 =
        (x (φ (N + 1)) j - x (φ N) j) * phase (-(g.get j * (φ N * T))) := by
      simp only [x, phase]
      rw [sub_mul (Complex.exp _), ← Complex.exp_add, ← Complex.exp_add]
      congr 1
      · congr 1; push_cast; ring
      · push_cast; rw [← Complex.exp_zero]; congr 1; ring
    rw [e, norm_mul, norm_phase, mul_one, ← dist_eq_norm]
    exact hj.le

/-- **C96** On every grid the returned coherence comes back as close to 1 as desired at arbitrarily large separations, for all
wavenumbers and components at once. -/
theorem C96_recurrence (s : OPS) (hp : s.params.LifetimeFinite) (hg : s.cohGridUsed.Pairwise (· < ·))
    (h2 : 2 ≤ s.cohGridUsed.length) {e : ℝ} (he : 0 < e) (R : ℝ) :
    ∃ r > R, ∀ k1s : List ℝ, (∀ k1 ∈ k1s, 0 < k1) → ∃ v : Comp3 → ℝ → ℝ,
      (OPS.SpectralCoherence k1s [r] s).1 = .ok ([Comp3.u, Comp3.v, Comp3.w].map fun c => [k1s.map fun k1 => fin (v c k1)]) ∧
      ∀ c, ∀ k1 ∈ k1s, 1 - e ≤ v c k1 := by
  set g := s.cohGridUsed with hgdef
  obtain ⟨r, hr, hph⟩ := phase_recurrent g (half_pos he) R
  refine ⟨r, hr, fun k1s hk => ?_⟩
  have hw := gridWidth_pos hg h2
  have hpos : ∀ c k1, 0 < quad23 g g (Spec.cohDensity s.params c k1) := by
    intro c k1
    refine lt_of_lt_of_le ?_ (quad23_ge (hg.imp le_of_lt) (hg.imp le_of_lt) fun x _ y _ => cohDensity_ge s.params c k1 x y)
    positivity
  refine ⟨fun c k1 => ‖cohZ g g (Spec.cohDensity s.params c k1) r‖ ^ 2 / (quad23 g g (Spec.cohDensity s.params c k1)) ^ 2, ?_, ?_⟩
  · rw [coherence_eq]
    congr 1
    apply List.map_congr_left
    intro c _
    simp only [List.map_cons, List.map_nil]
    congr 1
    apply List.map_congr_left
    intro k1 h1
    exact cohEntry_fin _ _ _ _ _ _ _ (fun k2 _ k3 _ => cohPhi_spec s.params hp (hk k1 h1).ne' c k2 k3) (hpos c k1)
  · intro c k1 _
    set f := Spec.cohDensity s.params c k1 with hf
    have h0 := hpos c k1
    have hdiff : ‖cohZ g g f r - cohZ g g f 0‖ ≤ e / 2 * quad23 g g f := by
      have e1 : cohZ g g f r - cohZ g g f 0 = quad23 g g fun k2 k3 => (f k2 k3 : ℂ) * (phase (k2 * r) - 1) := by
        unfold cohZ
        have := quad23_map (fun z : ℂ × ℂ => z.1 - z.2) (by simp) (fun x y => by simp; ring) (fun t x => by simp; ring) g g
          fun k2 k3 => ((f k2 k3 : ℂ) * phase (k2 * r), (f k2 k3 : ℂ) * phase (k2 * 0))
        have e2 := quad23_map (fun z : ℂ × ℂ => z.1) (by simp) (fun x y => by simp) (fun t x => by simp) g g
          fun k2 k3 => ((f k2 k3 : ℂ) * phase (k2 * r), (f k2 k3 : ℂ) * phase (k2 * 0))
        have e3 := quad23_map (fun z : ℂ × ℂ => z.2) (by simp) (fun x y => by simp) (fun t x => by simp) g g
          fun k2 k3 => ((f k2 k3 : ℂ) * phase (k2 * r), (f k2 k3 : ℂ) * phase (k2 * 0))
        simp only at this e2 e3
        rw [e2, e3, ← this]
        apply quad23_congr
        intro x _ y _
        simp [phase]
        ring
      rw [e1]
      have := quad23_norm_le (hg.imp le_of_lt) (hg.imp le_of_lt) (f := fun k2 k3 => (f k2 k3 : ℂ) * (phase (k2 * r) - 1))
        (b := fun k2 k3 => e / 2 * f k2 k3) fun x hx y _ => by
          rw [norm_mul, Complex.norm_real, Real.norm_eq_abs, abs_of_nonneg (le_trans (by norm_num) (cohDensity_ge s.params c k1 x y)),
            mul_comm]
          exact mul_le_mul_of_nonneg_right (hph x hx) (le_trans (by norm_num) (cohDensity_ge s.params c k1 x y))
      refine this.trans (le_of_eq ?_)
      unfold quad23
      simp only [trapz_map_const_mul]
    rw [cohZ_zero] at hdiff
    have hlow : (1 - e / 2) * quad23 g g f ≤ ‖cohZ g g f r‖ := by
      have h3 := norm_sub_norm_le ((quad23 g g f : ℝ) : ℂ) (cohZ g g f r)
      rw [Complex.norm_real, Real.norm_eq_abs, abs_of_pos h0, norm_sub_rev] at h3
      linarith
    rw [le_div_iff₀ (by positivity)]
    by_cases h1 : e / 2 ≤ 1
    · have h4 : ((1 - e / 2) * quad23 g g f) ^ 2 ≤ ‖cohZ g g f r‖ ^ 2 :=
        pow_le_pow_left₀ (mul_nonneg (by linarith) h0.le) hlow 2
      nlinarith [sq_nonneg (e / 2 * quad23 g g f)]
    · have : (1 - e) * quad23 g g f ^ 2 ≤ 0 := mul_nonpos_of_nonpos_of_nonneg (by linarith) (by positivity)
      exact this.trans (by positivity)

/-- **C96** Hence on no grid are the values right for all separations: however large the domain, there are separations beyond any
bound where the returned coherence is nearly 1 and that of the tensor is nearly 0, for all components. -/
theorem C96_far_separations (s : OPS) (hc : s.params.LifetimeContinuous) (hg : s.cohGridUsed.Pairwise (· < ·))
    (h2 : 2 ≤ s.cohGridUsed.length) {k1 : ℝ} (hk : 0 < k1) {a : ℝ} (ha : 0 ≤ a) {e : ℝ} (he : 0 < e) (R : ℝ) :
    ∃ r > R, ∃ u v w : ℝ, (OPS.SpectralCoherence [k1] [r] s).1 = .ok [[[fin u]], [[fin v]], [[fin w]]] ∧
      1 - e ≤ u ∧ 1 - e ≤ v ∧ 1 - e ≤ w ∧ ∀ c, Spec.coherence a (Spec.cohDensity s.params c k1) r ≤ e := by
  have hd : ∀ c, ∃ T : ℝ, ∀ r > T, Spec.coherence a (Spec.cohDensity s.params c k1) r ≤ e := by
    intro c
    have h := (C96_decay s.params hc hk.ne' c ha).mono_left atTop_le_cocompact
    obtain ⟨T, hT⟩ := eventually_atTop.1 (h.eventually_le_const he)
    exact ⟨T, fun r hr => hT r hr.le⟩
  choose T hT using hd
  obtain ⟨r, hr, h⟩ := C96_recurrence s (lifetimeFinite_of_continuous hc) hg h2 he (max R (max (T .u) (max (T .v) (T .w))))
  obtain ⟨v, hv, hb⟩ := h [k1] (by simpa using hk)
  simp only [gt_iff_lt, max_lt_iff] at hr
  refine ⟨r, hr.1, v .u k1, v .v k1, v .w k1, by simpa using hv, hb _ _ (by simp), hb _ _ (by simp), hb _ _ (by simp), ?_⟩
  rintro (_ | _ | _)
  · exact hT _ _ hr.2.1
  · exact hT _ _ hr.2.2.1
  · exact hT _ _ hr.2.2.2

/-- An object without a configured grid meets the hypotheses. -/
example (s : OPS) (h : s.cohGrid = none) : s.cohGridUsed.Pairwise (· < ·) ∧ 2 ≤ s.cohGridUsed.length := by
  have e : s.cohGridUsed = cohFallbackGrid (Real.exp s.logL) := by simp [OPS.cohGridUsed, h]
  rw [e]
  have := C22_grids (Real.exp_pos s.logL)
  exact ⟨this.1, by rw [this.2.1]; norm_num⟩

end
end Verif
