import Verif.Lemmas.TrapzConv
import Verif.Lemmas.TensorCont
import Verif.Props.OnePoint
import Verif.Props.Kernels

/-!
# Convergence of the predicted spectra under refinement of the integration grid: C94
-/

namespace Verif
open Fl Filter Topology MeasureTheory Verif.Spec

noncomputable section

/-- The learnable energy spectrum with its dimensional factors (docstring of `Learnable_EnergySpectrum`). -/
def Spec.learnE (L M p q κ : ℝ) : ℝ := M * L ^ (5 / 3 : ℝ) * ((L * κ) ^ p / (1 + (L * κ) ^ 2) ^ q)

/-- The energy spectrum a configuration stands for. -/
def Spec.energyOf (L M : ℝ) : SpectrumChoice → ℝ → ℝ
  | .vkLike => vkE L M
  | .learnable p q => learnE L M p q

/-- The spectral tensor the fitter stands for: textbook rapid distortion of the isotropic tensor, at the lifetime of the
configured model. -/
def Spec.fitTensor (p : OPSParams) (k1 k2 k3 : ℝ) (i j : Fin 3) : ℝ :=
  shearedTensor (energyOf p.L p.M p.sp) ![k1, k2, k3] (eddyLifetime p.hyp p.ty p.L p.T ⟨k1, k2, k3⟩).toReal i j

/-- Integral over the square of transverse wavenumbers. -/
def Spec.square (a : ℝ) (f : ℝ → ℝ → ℝ) : ℝ := ∫ k2 in (-a)..a, ∫ k3 in (-a)..a, f k2 k3

theorem energyE0_spec {L M : ℝ} (hL : 0 < L) {k : K3} {b : ℝ} (h : 0 < kk0R k b) (sp : SpectrumChoice) :
    energyE0 sp L M k (fin b) = fin (Spec.energyOf L M sp (Real.sqrt (kk0R k b))) := by
  cases sp with
  | vkLike => exact energyE0_vk hL h
  | learnable p q =>
    have hx : 0 < L * Real.sqrt (kk0R k b) := mul_pos hL (Real.sqrt_pos.2 h)
    have hk0' : k.k1 * k.k1 + k.k2 * k.k2 + (k.k3 + b * k.k1) * (k.k3 + b * k.k1) = kk0R k b := rfl
    unfold energyE0
    simp only [fin_mul_fin, fin_add_fin, hk0', sqrt_fin h.le, pow_fin _ hL, SpectrumChoice.eval, learnable_pos hx,
      Spec.energyOf, Spec.learnE]
    rw [show (L * Real.sqrt (kk0R k b)) ^ 2 = L * Real.sqrt (kk0R k b) * (L * Real.sqrt (kk0R k b)) by ring]

theorem energyOf_cont {L : ℝ} (hL : 0 < L) (M : ℝ) (sp : SpectrumChoice) :
    ContinuousOn (Spec.energyOf L M sp) (Set.Ioi 0) := by
  cases sp with
  | vkLike =>
    unfold Spec.energyOf vkE
    refine ContinuousOn.mul (continuousOn_const.mul ?_) ?_
    · exact continuousOn_id.rpow_const fun x hx => Or.inl (ne_of_gt hx)
    · refine ContinuousOn.rpow_const ?_ fun x hx => Or.inl ?_
      · refine ContinuousOn.div (by fun_prop) (by fun_prop) fun x _ => ?_
        have : 0 < 1 + (x * L) ^ 2 := by positivity
        exact (Real.sqrt_pos.2 this).ne'
      · have hx : (0:ℝ) < x := hx
        have : 0 < 1 + (x * L) ^ 2 := by positivity
        exact (div_pos (mul_pos hx hL) (Real.sqrt_pos.2 this)).ne'
  | learnable p q =>
    unfold Spec.energyOf Spec.learnE
    refine continuousOn_const.mul (ContinuousOn.div ?_ ?_ fun x _ => ?_)
    · exact ContinuousOn.rpow_const (by fun_prop) fun x hx => Or.inl (mul_pos hL hx).ne'
    · refine ContinuousOn.rpow_const (by fun_prop) fun x _ => Or.inl ?_
      have : 0 < 1 + (L * x) ^ 2 := by positivity
      exact this.ne'
    · have : 0 < 1 + (L * x) ^ 2 := by positivity
      exact (Real.rpow_pos_of_pos this _).ne'

/-- The fitter's tensor before the floor, for any energy spectrum. -/
theorem phiRaw_sheared {k : K3} (h : k.k1 ≠ 0) (b : ℝ) (E : ℝ → ℝ) :
    phiRaw k (fin b) (fin (E (Real.sqrt (kk0R k b)) / (4 * Real.pi))) =
      { p11 := fin (shearedTensor E k.vec b 0 0)
        p22 := fin (shearedTensor E k.vec b 1 1)
        p33 := fin (shearedTensor E k.vec b 2 2)
        p13 := fin (shearedTensor E k.vec b 0 2)
        p23 := fin (shearedTensor E k.vec b 1 2)
        p12 := fin (shearedTensor E k.vec b 0 1) } := by
  have hk0 := kk0R_pos (b := b) h
  have hk := kkR_pos h
  rw [phiRaw_fin h]
  simp only [shearedTensor_eq h, Fin.sum_univ_three, kerR, zc_generic h]
  generalize E (Real.sqrt (kk0R k b)) / (4 * Real.pi) = w
  have hk0' := hk0.ne'
  have hk' := hk.ne'
  have e : kk0R k b = k.k1 * k.k1 + k.k2 * k.k2 + k30R k b * k30R k b := rfl
  have es : sR k = k.k1 * k.k1 + k.k2 * k.k2 := rfl
  congr 2
  · simp; left; rw [e, es]; ring
  · simp; left; rw [e, es]; ring
  · simp [z3R]; field_simp; rw [es]; ring
  · simp [z3R]; field_simp; rw [es]; ring
  · simp [z3R]; field_simp; rw [es]; ring
  · simp; left; rw [es]; ring

theorem floorEps_max (eps x : ℝ) : floorEps eps (fin x) = fin (max x eps) := by
  rcases le_or_gt eps x with h | h
  · rw [floorEps_of_le h, max_eq_left h]
  · rw [floorEps_of_lt h, max_eq_right h.le]

theorem floorEpsSigned_near {eps : ℝ} (he : 0 < eps) (x : ℝ) :
    ∃ y, floorEpsSigned eps (fin x) = fin y ∧ |y - x| ≤ eps := by
  unfold floorEpsSigned
  by_cases h : |x| < eps
  · have h' := abs_lt.1 h
    simp only [abs_fin, lt_fin, h, if_true, Fl.sign]
    split_ifs with h1 h2
    · exact ⟨_, rfl, by rw [abs_le]; constructor <;> linarith [h'.1, h'.2]⟩
    · exact ⟨_, rfl, by rw [abs_le]; constructor <;> linarith [h'.1, h'.2]⟩
    · exact ⟨_, rfl, by rw [abs_le]; constructor <;> linarith [h'.1, h'.2]⟩
  · exact ⟨x, by simp [h], by simpa using he.le⟩

/-- The tensor computed inside `forward` is the textbook tensor up to the floor. -/
theorem opsPhi_spec (p : OPSParams) (hp : p.LifetimeFinite) {k1 : ℝ} (hk : k1 ≠ 0) (k2 k3 : ℝ) :
    ∃ y, |y - Spec.fitTensor p k1 k2 k3 0 2| ≤ 1e-12 ∧ opsPhi p ⟨k1, k2, k3⟩ =
      { p11 := fin (max (Spec.fitTensor p k1 k2 k3 0 0) 1e-12)
        p22 := fin (max (Spec.fitTensor p k1 k2 k3 1 1) 1e-12)
        p33 := fin (max (Spec.fitTensor p k1 k2 k3 2 2) 1e-12)
        p13 := fin y
        p23 := fin (max (Spec.fitTensor p k1 k2 k3 1 2) 1e-12)
        p12 := fin (max (Spec.fitTensor p k1 k2 k3 0 1) 1e-12) } := by
  obtain ⟨b, hb⟩ := hp ⟨k1, k2, k3⟩ hk
  have h4 : (4 * Real.pi) ≠ 0 := by positivity
  obtain ⟨y, hy, hy'⟩ := floorEpsSigned_near (eps := 1e-12) (by norm_num) (Spec.fitTensor p k1 k2 k3 0 2)
  refine ⟨y, hy', ?_⟩
  unfold opsPhi
  simp only [hb, energyE0_spec p.L_pos (kk0R_pos (k := ⟨k1, k2, k3⟩) (b := b) hk), fin_div_fin _ h4]
  rw [phiRaw_sheared (k := ⟨k1, k2, k3⟩) hk]
  have e : ∀ i j, shearedTensor (Spec.energyOf p.L p.M p.sp) (K3.vec ⟨k1, k2, k3⟩) b i j = Spec.fitTensor p k1 k2 k3 i j := by
    intro i j
    unfold Spec.fitTensor
    rw [hb, toReal_fin]; rfl
  simp only [e, phiFloor, floorEps_max, hy]

theorem fitTensor_cont (p : OPSParams) (hp : p.LifetimeContinuous) {k1 : ℝ} (hk : k1 ≠ 0) (i j : Fin 3) :
    Continuous fun q : ℝ × ℝ => Spec.fitTensor p k1 q.1 q.2 i j := by
  obtain ⟨b, hb, e⟩ := hp k1 hk
  unfold Spec.fitTensor
  simp only [e, toReal_fin]
  exact cont_sheared (α := ℝ × ℝ) hk continuous_fst continuous_snd hb (energyOf_cont p.L_pos p.M p.sp) i j

theorem lifetimeFinite_of_continuous {p : OPSParams} (h : p.LifetimeContinuous) : p.LifetimeFinite := by
  intro k hk
  obtain ⟨b, -, e⟩ := h k.k1 hk
  exact ⟨b (k.k2, k.k3), e (k.k2, k.k3)⟩

theorem opsGrid_ends {p1 p2 : ℝ} {n : ℕ} (hn : 2 ≤ n) :
    (opsGrid p1 p2 n).headD 0 = -(10:ℝ) ^ p2 ∧ (opsGrid p1 p2 n).getLastD 0 = (10:ℝ) ^ p2 := by
  obtain ⟨h1, h2⟩ := C17_range (p1 := p1) (p2 := p2) n hn
  rw [List.getLastD_eq_getLast?, h1, List.headD_eq_head?_getD, h2]
  exact ⟨rfl, rfl⟩

theorem opsGrid_mem {p1 p2 : ℝ} (h : p1 < p2) {n : ℕ} (hn : 2 ≤ n) :
    ∀ x ∈ opsGrid p1 p2 n, x ∈ Set.Icc (-(10:ℝ) ^ p2) ((10:ℝ) ^ p2) := by
  intro x hx
  obtain ⟨h1, h2⟩ := C17_range (p1 := p1) (p2 := p2) n hn
  have hs := opsGrid_sorted h n
  obtain ⟨y, l, e⟩ : ∃ y l, opsGrid p1 p2 n = y :: l := by
    cases hg : opsGrid p1 p2 n with
    | nil => rw [hg] at hx; simp at hx
    | cons y l => exact ⟨y, l, rfl⟩
  have hy : y = -(10:ℝ) ^ p2 := by rw [e] at h2; simpa using h2
  constructor
  · rw [e] at hx hs
    rcases List.mem_cons.1 hx with rfl | hx
    · exact hy.ge
    · rw [← hy]; exact ((List.pairwise_cons.1 hs).1 x hx).le
  · have hr : -x ∈ opsGrid p1 p2 n := by
      rw [← opsGrid_symm p1 p2 n]
      exact List.mem_map.2 ⟨x, List.mem_reverse.2 hx, rfl⟩
    rw [e] at hr hs
    rcases List.mem_cons.1 hr with hr | hr
    · linarith
    · have := (List.pairwise_cons.1 hs).1 _ hr
      linarith

/-- A double sum over a fine enough library grid is close to the double integral. -/
theorem quad23_refine {f : ℝ → ℝ → ℝ} (hf : Continuous fun q : ℝ × ℝ => f q.1 q.2) (p2 : ℝ) {e : ℝ} (he : 0 < e) :
    ∃ P, ∀ p1 < P, ∃ N, ∀ n ≥ N, |quad23 (opsGrid p1 p2 n) (opsGrid p1 p2 n) f - Spec.square ((10:ℝ) ^ p2) f| ≤ e := by
  set a := (10:ℝ) ^ p2 with ha
  have ha0 : 0 < a := by positivity
  have he' : 0 < e / (2 * (2 * a) ^ 2) := by positivity
  obtain ⟨d, hd, hm⟩ := square_modulus hf a he'
  refine ⟨min p2 (Real.logb 10 d), fun p1 hp1 => ?_⟩
  have h1 : p1 < p2 := lt_of_lt_of_le hp1 (min_le_left _ _)
  have h2 : (10:ℝ) ^ p1 ≤ d := by
    have := Real.rpow_le_rpow_of_exponent_le (x := 10) (by norm_num) (le_of_lt (lt_of_lt_of_le hp1 (min_le_right _ _)))
    rwa [Real.rpow_logb (by norm_num) (by norm_num) hd] at this
  obtain ⟨N, hN⟩ := opsGrid_fine h1 h2
  refine ⟨max N 2, fun n hn => ?_⟩
  have hn2 : 2 ≤ n := le_trans (le_max_right _ _) hn
  obtain ⟨e1, e2⟩ := opsGrid_ends (p1 := p1) (p2 := p2) hn2
  have hne : opsGrid p1 p2 n ≠ [] := by
    have := opsGrid_length p1 p2 n
    intro h; rw [h] at this; simp at this
  have := quad23_err (f := f) ha0.le he'.le hne (hN n (le_trans (le_max_left _ _) hn)) e1 e2 (opsGrid_mem h1 hn2) hf hm
  refine this.trans (le_of_eq ?_)
  field_simp

/-- **C94** Refining the integration grid (smaller `p1`, then more points) on a fixed domain brings every predicted spectrum
as close as desired to the double integral of the textbook tensor over the square `|k2|, |k3| ≤ 10^p2`, where the
components 11, 22, 33, 23, 12 are cut below at `1e-12` and component 13 is off by at most the floor times the area. -/
theorem C94_refinement (s : OPS) (hc : s.params.LifetimeContinuous) (p2 : ℝ) {k1 : ℝ} (hk : 0 < k1) {e : ℝ} (he : 0 < e) :
    ∃ P, ∀ p1 < P, ∃ N, ∀ n ≥ N, ∃ uu vv ww uw vw uv : ℝ,
      (OPS.forward [k1] { s with grid := opsGrid p1 p2 n }).1 = .ok [[fin uu], [fin vv], [fin ww], [fin uw], [fin vw], [fin uv]] ∧
      let Φ := Spec.fitTensor s.params k1
      let I := Spec.square ((10:ℝ) ^ p2)
      |uu - k1 * I fun k2 k3 => max (Φ k2 k3 0 0) 1e-12| ≤ e ∧
      |vv - k1 * I fun k2 k3 => max (Φ k2 k3 1 1) 1e-12| ≤ e ∧
      |ww - k1 * I fun k2 k3 => max (Φ k2 k3 2 2) 1e-12| ≤ e ∧
      |uw - k1 * I fun k2 k3 => Φ k2 k3 0 2| ≤ e + k1 * (1e-12 * (2 * (10:ℝ) ^ p2) ^ 2) ∧
      |vw - k1 * I fun k2 k3 => max (Φ k2 k3 1 2) 1e-12| ≤ e ∧
      |uv - k1 * I fun k2 k3 => max (Φ k2 k3 0 1) 1e-12| ≤ e := by
  have hfin := lifetimeFinite_of_continuous hc
  have cT := fun i j => fitTensor_cont s.params hc hk.ne' i j
  have cM := fun i j => (cT i j).max (continuous_const (y := (1e-12 : ℝ)))
  have he' : 0 < e / k1 := div_pos he hk
  have scale : ∀ {x y r : ℝ}, |x - y| ≤ r → |k1 * x - k1 * y| ≤ k1 * r := by
    intro x y r h
    rw [← mul_sub, abs_mul, abs_of_pos hk]
    exact mul_le_mul_of_nonneg_left h hk.le
  have hek : k1 * (e / k1) = e := by field_simp
  obtain ⟨P1, h1⟩ := quad23_refine (f := fun k2 k3 => max (Spec.fitTensor s.params k1 k2 k3 0 0) 1e-12) (cM 0 0) p2 he'
  obtain ⟨P2, h2⟩ := quad23_refine (f := fun k2 k3 => max (Spec.fitTensor s.params k1 k2 k3 1 1) 1e-12) (cM 1 1) p2 he'
  obtain ⟨P3, h3⟩ := quad23_refine (f := fun k2 k3 => max (Spec.fitTensor s.params k1 k2 k3 2 2) 1e-12) (cM 2 2) p2 he'
  obtain ⟨P4, h4⟩ := quad23_refine (f := fun k2 k3 => Spec.fitTensor s.params k1 k2 k3 0 2) (cT 0 2) p2 he'
  obtain ⟨P5, h5⟩ := quad23_refine (f := fun k2 k3 => max (Spec.fitTensor s.params k1 k2 k3 1 2) 1e-12) (cM 1 2) p2 he'
  obtain ⟨P6, h6⟩ := quad23_refine (f := fun k2 k3 => max (Spec.fitTensor s.params k1 k2 k3 0 1) 1e-12) (cM 0 1) p2 he'
  refine ⟨min p2 (min P1 (min P2 (min P3 (min P4 (min P5 P6))))), fun p1 hp => ?_⟩
  simp only [lt_min_iff] at hp
  obtain ⟨hp0, hp1, hp2, hp3, hp4, hp5, hp6⟩ := hp
  obtain ⟨N1, h1⟩ := h1 p1 hp1
  obtain ⟨N2, h2⟩ := h2 p1 hp2
  obtain ⟨N3, h3⟩ := h3 p1 hp3
  obtain ⟨N4, h4⟩ := h4 p1 hp4
  obtain ⟨N5, h5⟩ := h5 p1 hp5
  obtain ⟨N6, h6⟩ := h6 p1 hp6
  refine ⟨max 2 (max N1 (max N2 (max N3 (max N4 (max N5 N6))))), fun n hn => ?_⟩
  simp only [ge_iff_le, max_le_iff] at hn
  obtain ⟨n0, n1, n2, n3, n4, n5, n6⟩ := hn
  set g := opsGrid p1 p2 n with hg
  choose y hy hphi using fun k2 k3 => opsPhi_spec s.params hfin hk.ne' k2 k3
  have hw : gridWidth g = 2 * (10:ℝ) ^ p2 := by
    obtain ⟨e1, e2⟩ := opsGrid_ends (p1 := p1) (p2 := p2) n0
    unfold gridWidth; rw [e1, e2]; ring
  refine ⟨k1 * quad23 g g fun k2 k3 => max (Spec.fitTensor s.params k1 k2 k3 0 0) 1e-12,
    k1 * quad23 g g fun k2 k3 => max (Spec.fitTensor s.params k1 k2 k3 1 1) 1e-12,
    k1 * quad23 g g fun k2 k3 => max (Spec.fitTensor s.params k1 k2 k3 2 2) 1e-12,
    k1 * quad23 g g y,
    k1 * quad23 g g fun k2 k3 => max (Spec.fitTensor s.params k1 k2 k3 1 2) 1e-12,
    k1 * quad23 g g fun k2 k3 => max (Spec.fitTensor s.params k1 k2 k3 0 1) 1e-12, ?_, ?_, ?_, ?_, ?_, ?_, ?_⟩
  · have hparams : ({ s with grid := g } : OPS).params = s.params := rfl
    rw [forward_eq, hparams]
    simp only [phiSelectors, List.map_cons, List.map_nil, hphi]
    have q : ∀ f : ℝ → ℝ → ℝ, quad23 g g (fun k2 k3 => fin (f k2 k3)) = fin (quad23 g g f) := fun f =>
      quad23_fin fun _ _ _ _ => rfl
    rw [q, q, q, q, q, q]
    simp only [fin_mul_fin]
  · exact (scale (h1 n n1)).trans hek.le
  · exact (scale (h2 n n2)).trans hek.le
  · exact (scale (h3 n n3)).trans hek.le
  · have hq : |quad23 g g y - quad23 g g fun k2 k3 => Spec.fitTensor s.params k1 k2 k3 0 2| ≤ 1e-12 * (2 * (10:ℝ) ^ p2) ^ 2 := by
      have hs : g.Pairwise (· ≤ ·) := (opsGrid_sorted hp0 n).imp le_of_lt
      have e1 : (quad23 g g y - quad23 g g fun k2 k3 => Spec.fitTensor s.params k1 k2 k3 0 2) =
          quad23 g g fun k2 k3 => y k2 k3 - Spec.fitTensor s.params k1 k2 k3 0 2 := by
        unfold quad23
        rw [trapz_sub]
        simp only [trapz_sub]
      rw [e1]
      have := quad23_norm_le hs hs (f := fun k2 k3 => y k2 k3 - Spec.fitTensor s.params k1 k2 k3 0 2)
        (b := fun _ _ => 1e-12) fun k2 _ k3 _ => hy k2 k3
      refine this.trans (le_of_eq ?_)
      unfold quad23
      rw [trapz_const, trapz_const, hw]; ring
    have := scale (r := e / k1 + 1e-12 * (2 * (10:ℝ) ^ p2) ^ 2) ((abs_sub_le _ _ _).trans ((add_comm _ _).le.trans (add_le_add (h4 n n4) hq)))
    rwa [mul_add, hek] at this
  · exact (scale (h5 n n5)).trans hek.le
  · exact (scale (h6 n n6)).trans hek.le

/-- **C94** All lifetime models satisfy the hypothesis (MANN: the hypergeometric function is the true one; TAUNET: continuous
entrywise activations and no non-zero wavevector sent to zero). -/
theorem C94_lifetimes (p : OPSParams)
    (h : match p.ty with
      | .mann => IsMannHyp p.hyp
      | .taunet net => net.Nondegenerate ∧ net.ContActs
      | _ => True) : p.LifetimeContinuous := lifetimeContinuous_of p h

theorem square_sub {f g : ℝ → ℝ → ℝ} (hf : Continuous fun q : ℝ × ℝ => f q.1 q.2)
    (hg : Continuous fun q : ℝ × ℝ => g q.1 q.2) (a : ℝ) :
    Spec.square a f - Spec.square a g = Spec.square a fun x y => f x y - g x y := by
  have inner : ∀ {f : ℝ → ℝ → ℝ}, (Continuous fun q : ℝ × ℝ => f q.1 q.2) → Continuous fun x => ∫ y in (-a)..a, f x y :=
    fun hf => intervalIntegral.continuous_parametric_intervalIntegral_of_continuous' hf (-a) a
  have col : ∀ {f : ℝ → ℝ → ℝ}, (Continuous fun q : ℝ × ℝ => f q.1 q.2) → ∀ x, Continuous fun y => f x y :=
    fun hf x => hf.comp (Continuous.prodMk_right x)
  unfold Spec.square
  rw [← intervalIntegral.integral_sub ((inner hf).intervalIntegrable _ _) ((inner hg).intervalIntegrable _ _)]
  congr 1
  funext x
  rw [← intervalIntegral.integral_sub ((col hf x).intervalIntegrable _ _) ((col hg x).intervalIntegrable _ _)]

theorem square_bounds {f : ℝ → ℝ → ℝ} (hf : Continuous fun q : ℝ × ℝ => f q.1 q.2) {a c : ℝ} (ha : 0 ≤ a)
    (h0 : ∀ x y, 0 ≤ f x y) (h1 : ∀ x y, f x y ≤ c) : 0 ≤ Spec.square a f ∧ Spec.square a f ≤ c * (2 * a) ^ 2 := by
  have haa : -a ≤ a := by linarith
  have inner : Continuous fun x => ∫ y in (-a)..a, f x y :=
    intervalIntegral.continuous_parametric_intervalIntegral_of_continuous' hf (-a) a
  have col : ∀ x, Continuous fun y => f x y := fun x => hf.comp (Continuous.prodMk_right x)
  have up : ∀ x, ∫ y in (-a)..a, f x y ≤ c * (2 * a) := by
    intro x
    have := intervalIntegral.integral_mono_on (μ := volume) (g := fun _ => c) haa ((col x).intervalIntegrable _ _)
      (continuous_const.intervalIntegrable _ _) fun y _ => h1 x y
    rw [intervalIntegral.integral_const, smul_eq_mul] at this
    linarith
  unfold Spec.square
  constructor
  · exact intervalIntegral.integral_nonneg haa fun x _ => intervalIntegral.integral_nonneg haa fun y _ => h0 x y
  · have := intervalIntegral.integral_mono_on (μ := volume) (g := fun _ => c * (2 * a)) haa (inner.intervalIntegrable _ _)
      (continuous_const.intervalIntegrable _ _) fun x _ => up x
    rw [intervalIntegral.integral_const, smul_eq_mul] at this
    linarith

theorem sheared_diag_nonneg {E : ℝ → ℝ} {k : K3} (h : k.k1 ≠ 0) {b : ℝ} (hE : 0 ≤ E (Real.sqrt (kk0R k b))) (i : Fin 3) :
    0 ≤ shearedTensor E k.vec b i i := by
  rw [shearedTensor_eq h]
  have := kk0R_pos (b := b) h
  have hpi := Real.pi_pos
  refine mul_nonneg (by positivity) (Finset.sum_nonneg fun m _ => mul_self_nonneg _)

theorem energyOf_nonneg {L M : ℝ} (hL : 0 < L) (hM : 0 ≤ M) (sp : SpectrumChoice) {κ : ℝ} (hκ : 0 ≤ κ) :
    0 ≤ Spec.energyOf L M sp κ := by
  cases sp with
  | vkLike => unfold Spec.energyOf vkE; positivity
  | learnable p q => unfold Spec.energyOf Spec.learnE; positivity

theorem fitTensor_diag_nonneg (p : OPSParams) {k1 : ℝ} (hk : k1 ≠ 0) (k2 k3 : ℝ) (i : Fin 3) :
    0 ≤ Spec.fitTensor p k1 k2 k3 i i :=
  sheared_diag_nonneg (k := ⟨k1, k2, k3⟩) hk (energyOf_nonneg p.L_pos p.M_pos.le p.sp (Real.sqrt_nonneg _)) i

/-- **C94** The floor shifts the limit by at most the floor times the area of the domain. -/
theorem C94_floor_bias (p : OPSParams) (hc : p.LifetimeContinuous) {k1 : ℝ} (hk : k1 ≠ 0) {a : ℝ} (ha : 0 ≤ a) (i : Fin 3) :
    0 ≤ (Spec.square a fun k2 k3 => max (Spec.fitTensor p k1 k2 k3 i i) 1e-12) -
      Spec.square a (fun k2 k3 => Spec.fitTensor p k1 k2 k3 i i) ∧
    (Spec.square a fun k2 k3 => max (Spec.fitTensor p k1 k2 k3 i i) 1e-12) -
      Spec.square a (fun k2 k3 => Spec.fitTensor p k1 k2 k3 i i) ≤ 1e-12 * (2 * a) ^ 2 := by
  have cT := fitTensor_cont p hc hk i i
  have cM := cT.max (continuous_const (y := (1e-12 : ℝ)))
  rw [square_sub (f := fun k2 k3 => max (Spec.fitTensor p k1 k2 k3 i i) 1e-12)
    (g := fun k2 k3 => Spec.fitTensor p k1 k2 k3 i i) cM cT]
  refine square_bounds (f := fun k2 k3 => max (Spec.fitTensor p k1 k2 k3 i i) 1e-12 - Spec.fitTensor p k1 k2 k3 i i)
    (cM.sub cT) ha (fun x y => sub_nonneg.2 (le_max_left _ _)) fun x y => ?_
  have := fitTensor_diag_nonneg p hk x y i
  rcases max_cases (Spec.fitTensor p k1 x y i i) 1e-12 with h | h <;> linarith [h.1]

/-- **C94** Nevertheless enlarging the domain does not converge: because of the floor every predicted auto-spectrum exceeds
any bound once the domain is large enough, whatever the other grid parameters. -/
theorem C94_domain_diverges (s : OPS) (hp : s.params.LifetimeFinite) {k1 : ℝ} (hk : 0 < k1) (B : ℝ) :
    ∃ P, ∀ p2 ≥ P, ∀ p1 < p2, ∀ n ≥ 2, ∃ uu vv ww uw vw uv : ℝ,
      (OPS.forward [k1] { s with grid := opsGrid p1 p2 n }).1 = .ok [[fin uu], [fin vv], [fin ww], [fin uw], [fin vw], [fin uv]] ∧
      B ≤ uu ∧ B ≤ vv ∧ B ≤ ww := by
  have ht : Tendsto (fun p2 : ℝ => k1 * (1e-12 * (2 * (10:ℝ) ^ p2) * (2 * (10:ℝ) ^ p2))) atTop atTop := by
    have h10 : Tendsto (fun p2 : ℝ => 2 * (10:ℝ) ^ p2) atTop atTop :=
      (tendsto_rpow_atTop_of_base_gt_one 10 (by norm_num)).const_mul_atTop (by norm_num)
    exact ((h10.const_mul_atTop (by norm_num)).atTop_mul_atTop₀ h10).const_mul_atTop hk
  obtain ⟨P, hP⟩ := eventually_atTop.1 (ht.eventually_ge_atTop B)
  refine ⟨P, fun p2 hp2 p1 h12 n hn => ?_⟩
  obtain ⟨uu, vv, ww, uw, vw, uv, hf, hb⟩ := C18_auto_spectra_positive { s with grid := opsGrid p1 p2 n } hp
    (opsGrid_sorted h12 n) [k1] (by simpa using hk)
  have hlen : ∀ row ∈ [uu, vv, ww, uw, vw, uv], row.length = 1 := by
    obtain ⟨rows, hr, -, hl⟩ := C20_forward_total { s with grid := opsGrid p1 p2 n } [k1]
    rw [hf] at hr
    cases hr
    intro row hrow
    have := hl (row.map fin) (List.mem_map.2 ⟨row, hrow, rfl⟩)
    simpa using this
  have hw : gridWidth (opsGrid p1 p2 n) = 2 * (10:ℝ) ^ p2 := by
    obtain ⟨e1, e2⟩ := opsGrid_ends (p1 := p1) (p2 := p2) hn
    unfold gridWidth; rw [e1, e2]; ring
  simp only [hw] at hb
  have one : ∀ row ∈ [uu, vv, ww, uw, vw, uv], ∃ x, row = [x] := fun row hr => List.length_eq_one_iff.1 (hlen row hr)
  obtain ⟨a1, rfl⟩ := one uu (by simp)
  obtain ⟨a2, rfl⟩ := one vv (by simp)
  obtain ⟨a3, rfl⟩ := one ww (by simp)
  obtain ⟨a4, rfl⟩ := one uw (by simp)
  obtain ⟨a5, rfl⟩ := one vw (by simp)
  obtain ⟨a6, rfl⟩ := one uv (by simp)
  refine ⟨a1, a2, a3, a4, a5, a6, by simpa using hf, ?_, ?_, ?_⟩
  · exact (hP p2 hp2).trans (by simpa using hb [a1] (by simp))
  · exact (hP p2 hp2).trans (by simpa using hb [a2] (by simp))
  · exact (hP p2 hp2).trans (by simpa using hb [a3] (by simp))

/-- The hypotheses hold for instance for the Mann lifetime with the true hypergeometric function. -/
example (s : OPS) (h : IsMannHyp s.hyp) (hk : s.kind = .mann) : s.params.LifetimeContinuous := by
  refine lifetimeContinuous_of _ ?_
  have : s.params.ty = .mann := by simp [OPS.params, OPS.ty, OPS.initApprox, hk]
  rw [this]
  exact h

end
end Verif
