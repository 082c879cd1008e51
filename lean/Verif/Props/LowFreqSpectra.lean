import Verif.Props.LowFreqField
import Mathlib.MeasureTheory.Integral.IntegralEqImproper
import Mathlib.Analysis.SpecialFunctions.ImproperIntegrals
import Mathlib.Analysis.SpecialFunctions.Integrability.Basic

/-!
# Spectra of the low-frequency field (C71, C73, C74, C82-C84)
-/

namespace Verif

noncomputable section
open Classical MeasureTheory

/-! ### C71: the normalisation constant -/

/-- The documented shape of the energy spectrum, `kappa^3 / ((L^-2 + kappa^2)^(7/3) (1 + kappa^2 z^2))`. -/
def lfShape (L z kappa : ℝ) : ℝ := kappa ^ 3 / ((1 / L ^ 2 + kappa ^ 2) ^ (7 / 3 : ℝ) * (1 + kappa ^ 2 * z ^ 2))

theorem shape_base_pos {L : ℝ} (hL : 0 < L) (kappa : ℝ) : 0 < 1 / L ^ 2 + kappa ^ 2 := by positivity

theorem shape_den_ge {L z : ℝ} (hL : 0 < L) (hcut : 1e-30 ≤ (1 / L ^ 2) ^ (7 / 3 : ℝ)) (kappa : ℝ) :
    1e-30 ≤ (1 / L ^ 2 + kappa ^ 2) ^ (7 / 3 : ℝ) * (1 + kappa ^ 2 * z ^ 2) := by
  have h1 : (1 / L ^ 2) ^ (7 / 3 : ℝ) ≤ (1 / L ^ 2 + kappa ^ 2) ^ (7 / 3 : ℝ) :=
    Real.rpow_le_rpow (by positivity) (by nlinarith [sq_nonneg kappa]) (by norm_num)
  have h2 : 1 ≤ 1 + kappa ^ 2 * z ^ 2 := by nlinarith [mul_nonneg (sq_nonneg kappa) (sq_nonneg z)]
  have h3 : (0 : ℝ) ≤ (1 / L ^ 2 + kappa ^ 2) ^ (7 / 3 : ℝ) := by positivity
  calc (1e-30 : ℝ) ≤ (1 / L ^ 2 + kappa ^ 2) ^ (7 / 3 : ℝ) * 1 := by rw [mul_one]; exact hcut.trans h1
    _ ≤ _ := by gcongr

theorem lfShape_nonneg {L : ℝ} (z : ℝ) {kappa : ℝ} (hk : 0 ≤ kappa) : 0 ≤ lfShape L z kappa := by
  unfold lfShape; positivity

theorem integrandShape_eq {L z : ℝ} (hL : 0 < L) (hcut : 1e-30 ≤ (1 / L ^ 2) ^ (7 / 3 : ℝ)) {kappa : ℝ} (hk : 0 < kappa) :
    integrandShape L z kappa = if kappa < 1e-15 then 0 else lfShape L z kappa := by
  unfold integrandShape lfShape
  simp only
  by_cases h : kappa < 1e-15
  · rw [if_pos h, if_pos]
    have : kappa ^ 2 < (1e-15) ^ 2 := by gcongr
    norm_num at this ⊢; exact this
  · rw [if_neg h]
    rw [if_neg]
    · rw [if_neg (not_lt.2 (shape_den_ge hL hcut kappa)), if_neg]
      rw [not_lt] at h ⊢
      refine le_trans ?_ h
      norm_num
    · rw [not_lt] at h ⊢
      have : (1e-15 : ℝ) ^ 2 ≤ kappa ^ 2 := by gcongr
      norm_num at this ⊢; exact this

theorem lfShape_continuous {L z : ℝ} (hL : 0 < L) : Continuous (lfShape L z) := by
  unfold lfShape
  refine Continuous.div (by fun_prop) ?_ ?_
  · refine Continuous.mul ?_ (by fun_prop)
    exact Continuous.rpow_const (by fun_prop) fun x => Or.inl (shape_base_pos hL x).ne'
  · intro x
    have := shape_base_pos hL x
    have h2 : 0 < 1 + x ^ 2 * z ^ 2 := by positivity
    positivity

theorem lfShape_le_rpow {L z : ℝ} {kappa : ℝ} (hk : 1 < kappa) : lfShape L z kappa ≤ kappa ^ (-5 / 3 : ℝ) := by
  have h0 : 0 < kappa := by linarith
  have e : kappa ^ (-5 / 3 : ℝ) = kappa ^ 3 / ((kappa ^ 2) ^ (7 / 3 : ℝ) * 1) := by
    rw [mul_one, ← Real.rpow_natCast, ← Real.rpow_natCast, ← Real.rpow_mul h0.le, ← Real.rpow_sub h0]
    norm_num
  rw [e]
  unfold lfShape
  have h1 : (kappa ^ 2) ^ (7 / 3 : ℝ) ≤ (1 / L ^ 2 + kappa ^ 2) ^ (7 / 3 : ℝ) :=
    Real.rpow_le_rpow (by positivity) (by nlinarith [show (0 : ℝ) ≤ 1 / L ^ 2 by positivity]) (by norm_num)
  have h2 : 1 ≤ 1 + kappa ^ 2 * z ^ 2 := by nlinarith [mul_nonneg (sq_nonneg kappa) (sq_nonneg z)]
  have h3 : (0 : ℝ) < (kappa ^ 2) ^ (7 / 3 : ℝ) := by positivity
  gcongr

theorem lfShape_integrable {L : ℝ} (z : ℝ) (hL : 0 < L) : IntegrableOn (lfShape L z) (Set.Ioi 0) := by
  have hsplit : Set.Ioi (0 : ℝ) = Set.Ioc 0 1 ∪ Set.Ioi 1 := (Set.Ioc_union_Ioi_eq_Ioi zero_le_one).symm
  rw [hsplit]
  refine IntegrableOn.union ?_ ?_
  · exact ((lfShape_continuous hL).integrableOn_Icc (a := 0) (b := 1)).mono_set Set.Ioc_subset_Icc_self
  · have hg : IntegrableOn (fun t : ℝ => t ^ (-5 / 3 : ℝ)) (Set.Ioi 1) :=
      integrableOn_Ioi_rpow_of_lt (by norm_num) one_pos
    refine hg.mono' ((lfShape_continuous hL).aestronglyMeasurable) ?_
    refine (ae_restrict_iff' measurableSet_Ioi).2 (Filter.Eventually.of_forall fun t ht => ?_)
    have ht' : (1 : ℝ) < t := ht
    rw [Real.norm_eq_abs, abs_of_nonneg (lfShape_nonneg z (by linarith))]
    exact lfShape_le_rpow ht'

/-- The integral the code computes is the documented one with `(0, 1e-15)` left out. -/
theorem integral_integrandShape {L z : ℝ} (hL : 0 < L) (hcut : 1e-30 ≤ (1 / L ^ 2) ^ (7 / 3 : ℝ)) :
    ∫ kappa in Set.Ioi (0 : ℝ), integrandShape L z kappa = ∫ kappa in Set.Ici (1e-15 : ℝ), lfShape L z kappa := by
  have e : ∀ x ∈ Set.Ioi (0 : ℝ), integrandShape L z x = (Set.Ici (1e-15 : ℝ)).indicator (lfShape L z) x := by
    intro x hx
    rw [integrandShape_eq hL hcut hx, Set.indicator_apply]
    by_cases h : x < 1e-15
    · rw [if_pos h, if_neg (by simpa using h)]
    · rw [if_neg h, if_pos (by simpa using h)]
  rw [setIntegral_congr_fun measurableSet_Ioi e, setIntegral_indicator measurableSet_Ici]
  congr 2
  ext x
  simp only [Set.mem_inter_iff, Set.mem_Ioi, Set.mem_Ici, and_iff_right_iff_imp]
  intro h
  exact lt_of_lt_of_le (by norm_num) h

theorem computeC_ok {sigma2 L z c : ℝ} (h : computeC sigma2 L z = .ok c) :
    L ≠ 0 ∧ 1e-16 ≤ ∫ kappa in Set.Ioi (0 : ℝ), integrandShape L z kappa ∧
      c = sigma2 / (2 * ∫ kappa in Set.Ioi (0 : ℝ), integrandShape L z kappa) := by
  unfold computeC at h
  by_cases hL : L = 0
  · rw [if_pos hL] at h; simp [throw, throwThe, MonadExceptOf.throw] at h
  · rw [if_neg hL] at h
    simp only at h
    by_cases hI : ∫ kappa in Set.Ioi (0 : ℝ), integrandShape L z kappa < 1e-16
    · rw [if_pos hI] at h; simp [throw, throwThe, MonadExceptOf.throw] at h
    · rw [if_neg hI] at h
      exact ⟨hL, not_lt.1 hI, (Except.ok.inj h).symm⟩

/-- **C71** The returned constant makes twice the integral of the documented spectrum over the resolved wavenumbers (all
above `1e-15`) exactly the requested variance, and twice the integral over all wavenumbers exceeds it by a relative error of
at most `1e-14`. -/
theorem C71_variance {sigma2 L z c : ℝ} (hL : 0 < L) (hcut : 1e-30 ≤ (1 / L ^ 2) ^ (7 / 3 : ℝ)) (hs : 0 ≤ sigma2)
    (h : computeC sigma2 L z = .ok c) :
    2 * ∫ kappa in Set.Ici (1e-15 : ℝ), c * lfShape L z kappa = sigma2 ∧
    sigma2 ≤ 2 * ∫ kappa in Set.Ioi (0 : ℝ), c * lfShape L z kappa ∧
    2 * ∫ kappa in Set.Ioi (0 : ℝ), c * lfShape L z kappa ≤ sigma2 * (1 + 1e-14) := by
  obtain ⟨-, hI, hc⟩ := computeC_ok h
  rw [integral_integrandShape hL hcut] at hI hc
  set I := ∫ kappa in Set.Ici (1e-15 : ℝ), lfShape L z kappa with hIdef
  have hIpos : 0 < I := lt_of_lt_of_le (by norm_num) hI
  have hc0 : 0 ≤ c := by rw [hc]; positivity
  have hcI : 2 * (c * I) = sigma2 := by rw [hc]; field_simp
  have hsplit : ∫ kappa in Set.Ioi (0 : ℝ), lfShape L z kappa = (∫ kappa in Set.Ioo (0 : ℝ) 1e-15, lfShape L z kappa) + I := by
    have hu : Set.Ioi (0 : ℝ) = Set.Ioo 0 1e-15 ∪ Set.Ici 1e-15 := (Set.Ioo_union_Ici_eq_Ioi (by norm_num)).symm
    rw [hu, setIntegral_union]
    · exact Set.disjoint_left.2 fun x hx hx' => absurd hx.2 (not_lt.2 hx')
    · exact measurableSet_Ici
    · exact (lfShape_integrable z hL).mono_set Set.Ioo_subset_Ioi_self
    · exact (lfShape_integrable z hL).mono_set (fun x hx => (show (0 : ℝ) < 1e-15 by norm_num).trans_le hx)
  have hsmall0 : 0 ≤ ∫ kappa in Set.Ioo (0 : ℝ) 1e-15, lfShape L z kappa :=
    setIntegral_nonneg measurableSet_Ioo fun x hx => lfShape_nonneg z hx.1.le
  have hsmall : ∫ kappa in Set.Ioo (0 : ℝ) 1e-15, lfShape L z kappa ≤ 1e-30 := by
    have hb : ∀ x ∈ Set.Ioo (0 : ℝ) 1e-15, lfShape L z x ≤ 1e-15 := by
      intro x hx
      unfold lfShape
      have hd := shape_den_ge (z := z) hL hcut x
      rw [div_le_iff₀ (lt_of_lt_of_le (by norm_num) hd)]
      have h3 : x ^ 3 ≤ (1e-15) ^ 3 := by gcongr; exact hx.1.le; exact hx.2.le
      calc x ^ 3 ≤ (1e-15 : ℝ) ^ 3 := h3
        _ = 1e-15 * 1e-30 := by norm_num
        _ ≤ _ := by gcongr
    calc ∫ kappa in Set.Ioo (0 : ℝ) 1e-15, lfShape L z kappa ≤ ∫ _ in Set.Ioo (0 : ℝ) 1e-15, (1e-15 : ℝ) := by
          refine setIntegral_mono_on ((lfShape_integrable z hL).mono_set Set.Ioo_subset_Ioi_self) ?_ measurableSet_Ioo hb
          simp
      _ = 1e-30 := by
          rw [setIntegral_const, Measure.real, Real.volume_Ioo, sub_zero, ENNReal.toReal_ofReal (by norm_num), smul_eq_mul]
          norm_num
  rw [integral_const_mul, integral_const_mul, hsplit]
  refine ⟨hcI, ?_, ?_⟩
  · nlinarith [mul_nonneg hc0 hsmall0]
  · have h1 : c * (∫ kappa in Set.Ioo (0 : ℝ) 1e-15, lfShape L z kappa) ≤ c * 1e-30 := by gcongr
    have h2 : c * 1e-16 ≤ c * I := by gcongr
    nlinarith

/-- **C71** The constant has the sign of the requested variance. -/
theorem C71_sign {sigma2 L z c : ℝ} (h : computeC sigma2 L z = .ok c) : 0 < c ↔ 0 < sigma2 := by
  obtain ⟨-, hI, hc⟩ := computeC_ok h
  have hIpos : 0 < ∫ kappa in Set.Ioi (0 : ℝ), integrandShape L z kappa := lt_of_lt_of_le (by norm_num) hI
  rw [hc]
  constructor
  · intro h; rw [div_pos_iff] at h
    rcases h with h | h
    · exact h.1
    · linarith [h.2]
  · intro h; positivity

theorem cut_of_le {L : ℝ} (h1 : 1 ≤ L) (h2 : L ≤ 1e6) : 1e-30 ≤ (1 / L ^ 2) ^ (7 / 3 : ℝ) := by
  have hb : (1e-12 : ℝ) ≤ 1 / L ^ 2 := by
    rw [le_div_iff₀ (by positivity)]
    have : L ^ 2 ≤ 1e6 ^ 2 := by gcongr
    calc (1e-12 : ℝ) * L ^ 2 ≤ 1e-12 * 1e6 ^ 2 := by gcongr
      _ = 1 := by norm_num
  calc (1e-30 : ℝ) = (1e-12 : ℝ) ^ (5 / 2 : ℝ) := by
        rw [show (1e-12 : ℝ) = (1e-6 : ℝ) ^ (2 : ℝ) by rw [Real.rpow_two]; norm_num, ← Real.rpow_mul (by norm_num)]
        norm_num
    _ ≤ (1e-12 : ℝ) ^ (7 / 3 : ℝ) := Real.rpow_le_rpow_of_exponent_ge (by norm_num) (by norm_num) (by norm_num)
    _ ≤ _ := Real.rpow_le_rpow (by norm_num) hb (by norm_num)

/-- **C71** The constant exists (no `ValueError`) for every length scale between a metre and a thousand kilometres and every
boundary-layer height up to a million length scales. -/
theorem C71_defined (sigma2 : ℝ) {L z : ℝ} (h1 : 1 ≤ L) (h2 : L ≤ 1e6) (hz : |z| ≤ 1e6 * L) :
    ∃ c, computeC sigma2 L z = .ok c := by
  have hL : 0 < L := by linarith
  have hcut := cut_of_le h1 h2
  have hI : 1e-16 ≤ ∫ kappa in Set.Ioi (0 : ℝ), integrandShape L z kappa := by
    rw [integral_integrandShape hL hcut]
    have hsub : Set.Icc (1 / L) (2 / L) ⊆ Set.Ici (1e-15 : ℝ) := by
      intro x hx
      refine le_trans ?_ hx.1
      rw [le_div_iff₀ hL]
      calc (1e-15 : ℝ) * L ≤ 1e-15 * 1e6 := by gcongr
        _ ≤ 1 := by norm_num
    have hint : IntegrableOn (lfShape L z) (Set.Ici (1e-15 : ℝ)) :=
      (lfShape_integrable z hL).mono_set fun x hx => (show (0 : ℝ) < 1e-15 by norm_num).trans_le hx
    have hlow : ∀ x ∈ Set.Icc (1 / L) (2 / L), L / (125 * (1 + 4e12)) ≤ lfShape L z x := by
      intro x hx
      have hx0 : 0 < x := lt_of_lt_of_le (by positivity) hx.1
      have hxu : x ^ 2 ≤ 4 / L ^ 2 := by
        calc x ^ 2 ≤ (2 / L) ^ 2 := by gcongr; exact hx.2
          _ = _ := by ring
      have hinv : 1 / L ^ 2 ≤ 1 := by rw [div_le_one (by positivity)]; nlinarith
      have d1 : (1 / L ^ 2 + x ^ 2) ^ (7 / 3 : ℝ) ≤ 125 * (1 / L ^ 4) := by
        calc (1 / L ^ 2 + x ^ 2) ^ (7 / 3 : ℝ) ≤ (5 * (1 / L ^ 2)) ^ (7 / 3 : ℝ) := by
              refine Real.rpow_le_rpow (by positivity) ?_ (by norm_num)
              have : 5 * (1 / L ^ 2) = 1 / L ^ 2 + 4 / L ^ 2 := by ring
              linarith
          _ = 5 ^ (7 / 3 : ℝ) * (1 / L ^ 2) ^ (7 / 3 : ℝ) := Real.mul_rpow (by norm_num) (by positivity)
          _ ≤ 5 ^ (3 : ℝ) * (1 / L ^ 2) ^ (2 : ℝ) := by
              refine mul_le_mul ?_ ?_ (by positivity) (by positivity)
              · exact Real.rpow_le_rpow_of_exponent_le (by norm_num) (by norm_num)
              · exact Real.rpow_le_rpow_of_exponent_ge (by positivity) hinv (by norm_num)
          _ = _ := by
              rw [show (3 : ℝ) = ((3 : ℕ) : ℝ) by norm_num, show (2 : ℝ) = ((2 : ℕ) : ℝ) by norm_num, Real.rpow_natCast,
                Real.rpow_natCast]
              field_simp
              norm_num
      have d2 : 1 + x ^ 2 * z ^ 2 ≤ 1 + 4e12 := by
        have hz2 : z ^ 2 ≤ (1e6 * L) ^ 2 := by rw [← sq_abs]; gcongr
        have : x ^ 2 * z ^ 2 ≤ 4 / L ^ 2 * (1e6 * L) ^ 2 := by gcongr
        have e : 4 / L ^ 2 * (1e6 * L) ^ 2 = 4e12 := by field_simp; norm_num
        linarith
      have hx3 : 1 / L ^ 3 ≤ x ^ 3 := by
        calc 1 / L ^ 3 = (1 / L) ^ 3 := by ring
          _ ≤ x ^ 3 := by gcongr; exact hx.1
      have hbase := shape_base_pos hL x
      unfold lfShape
      calc L / (125 * (1 + 4e12)) = (1 / L ^ 3) / (125 * (1 / L ^ 4) * (1 + 4e12)) := by field_simp
        _ ≤ x ^ 3 / (125 * (1 / L ^ 4) * (1 + 4e12)) := by gcongr
        _ ≤ _ := by
            refine div_le_div_of_nonneg_left (by positivity) (by positivity) ?_
            exact mul_le_mul d1 d2 (by positivity) (by positivity)
    calc (1e-16 : ℝ) ≤ 1 / (125 * (1 + 4e12)) := by norm_num
      _ = ∫ _ in Set.Icc (1 / L) (2 / L), L / (125 * (1 + 4e12)) := by
          rw [setIntegral_const, Measure.real, Real.volume_Icc, ENNReal.toReal_ofReal (by rw [← sub_div]; norm_num; exact hL.le),
            smul_eq_mul]
          field_simp
          ring
      _ ≤ ∫ x in Set.Icc (1 / L) (2 / L), lfShape L z x :=
          setIntegral_mono_on (by simp) (hint.mono_set hsub) measurableSet_Icc hlow
      _ ≤ _ := setIntegral_mono_set hint
          ((ae_restrict_iff' measurableSet_Ici).2 (Filter.Eventually.of_forall fun x hx =>
            lfShape_nonneg z (le_trans (by norm_num) hx))) (Filter.Eventually.of_forall hsub)
  refine ⟨sigma2 / (2 * ∫ kappa in Set.Ioi (0 : ℝ), integrandShape L z kappa), ?_⟩
  unfold computeC
  rw [if_neg hL.ne']
  simp only
  rw [if_neg (not_lt.2 hI)]
  rfl

/-- The constructor succeeds on a configuration with the default physical parameters, 40 x 5 length scales and
`1024 x 128` points, so the hypotheses of C67-C72 can be met. -/
example : ∃ lf, lfInit ⟨0.6, 15000, 0.75, 500, 40, 5, 10, 7⟩ = .ok lf :=
  (C67_total ⟨by norm_num, by norm_num, by norm_num⟩).2
    (C71_defined _ (by norm_num) (by norm_num) (by rw [abs_of_pos] <;> norm_num))

/-! ### C74: the analytical spectra -/

theorem lfKappaSq_nonneg (psi k1 k2 : ℝ) : 0 ≤ lfKappaSq psi k1 k2 := by unfold lfKappaSq; positivity

theorem lfE_nonneg {c : ℝ} (hc : 0 ≤ c) (L psi z k1 k2 : ℝ) : 0 ≤ lfE c L psi z k1 k2 := by
  unfold lfE
  simp only
  have : 0 ≤ max (lfKappaSq psi k1 k2) 1e-24 := le_max_of_le_left (lfKappaSq_nonneg _ _ _)
  split_ifs
  · exact le_refl _
  · positivity

theorem lfE_even {c L psi z k1 k2 k1' k2' : ℝ} (h1 : k1' ^ 2 = k1 ^ 2) (h2 : k2' ^ 2 = k2 ^ 2) :
    lfE c L psi z k1' k2' = lfE c L psi z k1 k2 := by
  have : lfKappaSq psi k1' k2' = lfKappaSq psi k1 k2 := by
    unfold lfKappaSq; rw [mul_pow, mul_pow, mul_pow, mul_pow, h1, h2]
  unfold lfE
  simp only [this]

theorem lfIntegrand_nonneg {c : ℝ} (hc : 0 ≤ c) (L psi z : ℝ) (i : Fin 2) (k2 k1 : ℝ) : 0 ≤ lfIntegrand c L psi z i k2 k1 := by
  unfold lfIntegrand
  simp only
  have := lfE_nonneg hc L psi z k1 k2
  split_ifs
  · exact le_refl _
  · fin_cases i
    · simp only; positivity
    · simp only; positivity

theorem lfIntegrand_even (c L psi z : ℝ) (i : Fin 2) {k1 k2 k1' k2' : ℝ} (h1 : k1' ^ 2 = k1 ^ 2) (h2 : k2' ^ 2 = k2 ^ 2) :
    lfIntegrand c L psi z i k2' k1' = lfIntegrand c L psi z i k2 k1 := by
  unfold lfIntegrand
  simp only [h1, h2, lfE_even h1 h2]

/-- The documented spectrum: `c kappa^3 / ((L^-2 + kappa^2)^(7/3) (1 + kappa^2 z^2))` at
`kappa = sqrt(2 ((k1 cos psi)^2 + (k2 sin psi)^2))`. -/
def lfEdoc (c L psi z k1 k2 : ℝ) : ℝ :=
  c * lfShape L z (Real.sqrt (2 * ((k1 * Real.cos psi) ^ 2 + (k2 * Real.sin psi) ^ 2)))

theorem lfE_eq {c L psi z k1 k2 : ℝ} (hL : 0 < L) (hcut : 1e-30 ≤ (1 / L ^ 2) ^ (7 / 3 : ℝ))
    (hk : 1e-24 ≤ lfKappaSq psi k1 k2) : lfE c L psi z k1 k2 = lfEdoc c L psi z k1 k2 := by
  unfold lfE lfEdoc lfShape
  simp only [max_eq_left hk]
  have e : Real.sqrt (lfKappaSq psi k1 k2) ^ 2 = lfKappaSq psi k1 k2 := Real.sq_sqrt (lfKappaSq_nonneg _ _ _)
  change _ = c * (Real.sqrt (lfKappaSq psi k1 k2) ^ 3 / ((1 / L ^ 2 + Real.sqrt (lfKappaSq psi k1 k2) ^ 2) ^ (7 / 3 : ℝ) *
    (1 + Real.sqrt (lfKappaSq psi k1 k2) ^ 2 * z ^ 2)))
  rw [e, if_neg, mul_div_assoc]
  have := shape_den_ge (z := z) hL hcut (Real.sqrt (lfKappaSq psi k1 k2))
  rw [e] at this
  exact not_lt.2 this

/-- **C74** The two integrands are non-negative and even in both wavenumbers. -/
theorem C74_nonneg_even {c : ℝ} (hc : 0 ≤ c) (L psi z : ℝ) (i : Fin 2) (k1 k2 : ℝ) :
    0 ≤ lfIntegrand c L psi z i k2 k1 ∧ lfIntegrand c L psi z i k2 (-k1) = lfIntegrand c L psi z i k2 k1 ∧
      lfIntegrand c L psi z i (-k2) k1 = lfIntegrand c L psi z i k2 k1 :=
  ⟨lfIntegrand_nonneg hc _ _ _ _ _ _, lfIntegrand_even _ _ _ _ _ (by ring) rfl, lfIntegrand_even _ _ _ _ _ rfl (by ring)⟩

/-- **C74** Away from the cut-offs the integrands are the documented `E(kappa)/(pi k) k2^2/k^2` and
`E(kappa)/(pi k) k1^2/k^2`, and they add up to `E(kappa)/(pi k)`. -/
theorem C74_documented {c L psi z k1 k2 : ℝ} (hL : 0 < L) (hcut : 1e-30 ≤ (1 / L ^ 2) ^ (7 / 3 : ℝ))
    (hkap : 1e-24 ≤ 2 * ((k1 * Real.cos psi) ^ 2 + (k2 * Real.sin psi) ^ 2)) (hk : 1e-24 ≤ k1 ^ 2 + k2 ^ 2) :
    lfIntegrand c L psi z 0 k2 k1 =
      lfEdoc c L psi z k1 k2 / (Real.pi * Real.sqrt (k1 ^ 2 + k2 ^ 2)) * (k2 ^ 2 / (k1 ^ 2 + k2 ^ 2)) ∧
    lfIntegrand c L psi z 1 k2 k1 =
      lfEdoc c L psi z k1 k2 / (Real.pi * Real.sqrt (k1 ^ 2 + k2 ^ 2)) * (k1 ^ 2 / (k1 ^ 2 + k2 ^ 2)) ∧
    lfIntegrand c L psi z 0 k2 k1 + lfIntegrand c L psi z 1 k2 k1 =
      lfEdoc c L psi z k1 k2 / (Real.pi * Real.sqrt (k1 ^ 2 + k2 ^ 2)) := by
  have h0 : lfIntegrand c L psi z 0 k2 k1 =
      lfEdoc c L psi z k1 k2 / (Real.pi * Real.sqrt (k1 ^ 2 + k2 ^ 2)) * (k2 ^ 2 / (k1 ^ 2 + k2 ^ 2)) := by
    unfold lfIntegrand; simp only; rw [if_neg (not_lt.2 hk), lfE_eq hL hcut hkap]
  have h1 : lfIntegrand c L psi z 1 k2 k1 =
      lfEdoc c L psi z k1 k2 / (Real.pi * Real.sqrt (k1 ^ 2 + k2 ^ 2)) * (k1 ^ 2 / (k1 ^ 2 + k2 ^ 2)) := by
    unfold lfIntegrand; simp only; rw [if_neg (not_lt.2 hk), lfE_eq hL hcut hkap]
  refine ⟨h0, h1, ?_⟩
  rw [h0, h1, ← mul_add, ← add_div, add_comm (k2 ^ 2), div_self, mul_one]
  exact (lt_of_lt_of_le (by norm_num) hk).ne'

/-- **C74** With an anisotropy angle of 45 degrees the spectrum depends on the wavenumber magnitude only. -/
theorem C74_isotropic (c L z k1 k2 : ℝ) :
    lfEdoc c L (Real.pi / 4) z k1 k2 = c * lfShape L z (Real.sqrt (k1 ^ 2 + k2 ^ 2)) := by
  unfold lfEdoc
  congr 3
  rw [mul_pow, mul_pow, Real.cos_pi_div_four, Real.sin_pi_div_four, div_pow, Real.sq_sqrt (by norm_num)]
  ring

theorem lfIntegrand_bounded {c : ℝ} (hc : 0 ≤ c) (L psi z : ℝ) (i : Fin 2) (k1 : ℝ) (a : ℝ) :
    ∃ B, ∀ k2 ∈ Set.Icc (-a) a, lfIntegrand c L psi z i k2 k1 ≤ B := by
  set M := max (2 * (k1 ^ 2 + a ^ 2)) 1e-24 with hM
  refine ⟨max 0 (c * Real.sqrt M ^ 3 / 1e-30 / (Real.pi * 1e-12)), fun k2 hk2 => ?_⟩
  have hk2sq : k2 ^ 2 ≤ a ^ 2 := by
    rw [← sq_abs k2]
    have := abs_le.2 hk2
    gcongr
  unfold lfIntegrand
  simp only
  split_ifs with h
  · exact le_max_left _ _
  · refine le_max_of_le_right ?_
    rw [not_lt] at h
    have hkpos : 0 < k1 ^ 2 + k2 ^ 2 := lt_of_lt_of_le (by norm_num) h
    have hsq : (1e-12 : ℝ) ≤ Real.sqrt (k1 ^ 2 + k2 ^ 2) := by
      rw [show (1e-12 : ℝ) = Real.sqrt 1e-24 by
        rw [show (1e-24 : ℝ) = 1e-12 ^ 2 by norm_num, Real.sqrt_sq (by norm_num)]]
      exact Real.sqrt_le_sqrt h
    have hE : lfE c L psi z k1 k2 ≤ c * Real.sqrt M ^ 3 / 1e-30 := by
      unfold lfE
      simp only
      have hkap : max (lfKappaSq psi k1 k2) 1e-24 ≤ M := by
        refine max_le_max ?_ (le_refl _)
        unfold lfKappaSq
        have c1 := Real.cos_sq_le_one psi
        have c2 := Real.sin_sq_le_one psi
        rw [mul_pow, mul_pow]
        nlinarith [mul_le_mul_of_nonneg_left c1 (sq_nonneg k1), mul_le_mul_of_nonneg_left c2 (sq_nonneg k2)]
      split_ifs with hd
      · positivity
      · rw [not_lt] at hd
        refine div_le_div₀ (by positivity) ?_ (by norm_num) hd
        gcongr
    have hE0 := lfE_nonneg hc L psi z k1 k2
    have hq : lfE c L psi z k1 k2 / (Real.pi * Real.sqrt (k1 ^ 2 + k2 ^ 2)) ≤ c * Real.sqrt M ^ 3 / 1e-30 / (Real.pi * 1e-12) := by
      have := Real.pi_pos
      refine div_le_div₀ (by positivity) hE (by positivity) (by gcongr)
    have hq0 : 0 ≤ lfE c L psi z k1 k2 / (Real.pi * Real.sqrt (k1 ^ 2 + k2 ^ 2)) := by positivity
    calc _ ≤ lfE c L psi z k1 k2 / (Real.pi * Real.sqrt (k1 ^ 2 + k2 ^ 2)) * 1 := by
          refine mul_le_mul_of_nonneg_left ?_ hq0
          rw [div_le_one hkpos]
          fin_cases i
          · simp only; nlinarith [sq_nonneg k1]
          · simp only; nlinarith [sq_nonneg k2]
      _ ≤ _ := by rw [mul_one]; exact hq

theorem lfIntegrand_measurable (c L psi z : ℝ) (i : Fin 2) (k1 : ℝ) : Measurable fun k2 => lfIntegrand c L psi z i k2 k1 := by
  unfold lfIntegrand lfE lfKappaSq
  simp only
  refine Measurable.ite (measurableSet_lt (by fun_prop) (by fun_prop)) measurable_const ?_
  refine Measurable.mul (Measurable.div (Measurable.ite (measurableSet_lt (by fun_prop) (by fun_prop)) measurable_const
    (by fun_prop)) (by fun_prop)) ?_
  fin_cases i
  · simp only; fun_prop
  · simp only; fun_prop

theorem lfIntegrand_intervalIntegrable {c : ℝ} (hc : 0 ≤ c) (L psi z : ℝ) (i : Fin 2) (k1 : ℝ) {a : ℝ} (ha : 0 ≤ a) :
    IntervalIntegrable (fun k2 => lfIntegrand c L psi z i k2 k1) volume (-a) a := by
  rw [intervalIntegrable_iff_integrableOn_Icc_of_le (by linarith)]
  obtain ⟨B, hB⟩ := lfIntegrand_bounded hc L psi z i k1 a
  refine Measure.integrableOn_of_bounded (M := B) (by simp) (lfIntegrand_measurable _ _ _ _ _ _).aestronglyMeasurable ?_
  refine (ae_restrict_iff' measurableSet_Icc).2 (Filter.Eventually.of_forall fun k2 hk2 => ?_)
  rw [Real.norm_eq_abs, abs_of_nonneg (lfIntegrand_nonneg hc _ _ _ _ _ _)]
  exact hB k2 hk2

/-- **C74** The returned spectra are non-negative, even in `k1`, non-decreasing in the integration limit, and away from
`k1 = 0` they add up to the integral of `E(kappa) / (pi k)`. -/
theorem C74_spectra (lf : LowFreq) (hc : 0 ≤ lf.c) (a b k1 : ℝ) (hab : |a| ≤ |b|) (i : Fin 2) :
    0 ≤ lf.analyticalSpectrum a i k1 ∧ lf.analyticalSpectrum a i (-k1) = lf.analyticalSpectrum a i k1 ∧
    lf.analyticalSpectrum a i k1 ≤ lf.analyticalSpectrum b i k1 ∧
    (1e-12 ≤ |k1| → lf.analyticalSpectrum a 0 k1 + lf.analyticalSpectrum a 1 k1 =
      ∫ k2 in (-|a|)..|a|, lfE lf.c lf.cfg.L2d lf.cfg.psi lf.cfg.zi k1 k2 / (Real.pi * Real.sqrt (k1 ^ 2 + k2 ^ 2))) := by
  have ha := abs_nonneg a
  refine ⟨?_, ?_, ?_, ?_⟩
  · unfold LowFreq.analyticalSpectrum
    simp only
    split_ifs
    · exact le_refl _
    · exact intervalIntegral.integral_nonneg (by linarith) fun x _ => lfIntegrand_nonneg hc _ _ _ _ _ _
  · unfold LowFreq.analyticalSpectrum
    simp only [abs_neg]
    have : ∀ k2, lfIntegrand lf.c lf.cfg.L2d lf.cfg.psi lf.cfg.zi i k2 (-k1) =
        lfIntegrand lf.c lf.cfg.L2d lf.cfg.psi lf.cfg.zi i k2 k1 := fun k2 => lfIntegrand_even _ _ _ _ _ (by ring) rfl
    simp only [this]
  · unfold LowFreq.analyticalSpectrum
    simp only
    split_ifs
    · exact le_refl _
    · refine intervalIntegral.integral_mono_interval (by linarith) (by linarith) hab ?_
        (lfIntegrand_intervalIntegrable hc _ _ _ _ _ (abs_nonneg b))
      exact Filter.Eventually.of_forall fun x => lfIntegrand_nonneg hc _ _ _ _ _ _
  · intro hk
    have hk' : ¬ |k1| < 1e-15 := not_lt.2 (le_trans (by norm_num) hk)
    have hsq : ∀ k2 : ℝ, 1e-24 ≤ k1 ^ 2 + k2 ^ 2 := by
      intro k2
      have : (1e-12 : ℝ) ^ 2 ≤ k1 ^ 2 := by rw [← sq_abs k1]; gcongr
      have e : (1e-12 : ℝ) ^ 2 = 1e-24 := by norm_num
      nlinarith [sq_nonneg k2]
    unfold LowFreq.analyticalSpectrum
    simp only
    rw [if_neg hk', if_neg hk', ← intervalIntegral.integral_add (lfIntegrand_intervalIntegrable hc _ _ _ _ _ ha)
      (lfIntegrand_intervalIntegrable hc _ _ _ _ _ ha)]
    refine intervalIntegral.integral_congr fun k2 _ => ?_
    unfold lfIntegrand
    simp only [if_neg (not_lt.2 (hsq k2))]
    rw [← mul_add, ← add_div, add_comm (k2 ^ 2), div_self, mul_one]
    exact (lt_of_lt_of_le (by norm_num) (hsq k2)).ne'

/-! ### C84: generator and analytical spectrum agree -/

theorem lfPhi_sq {c L psi z dx dy k1 k2 : ℝ} (hc : 0 ≤ c) (hL : 0 < L) (hcut : 1e-30 ≤ (1 / L ^ 2) ^ (7 / 3 : ℝ))
    (hd : 1e-16 ≤ dx * dy) (hk : 1e-20 ≤ k1 ^ 2 + k2 ^ 2)
    (hkap : 1e-20 ≤ 2 * ((k1 * Real.cos psi) ^ 2 + (k2 * Real.sin psi) ^ 2)) :
    lfPhi c L psi z dx dy k1 k2 ^ 2 =
      lfEdoc c L psi z k1 k2 / (Real.pi * Real.sqrt (k1 ^ 2 + k2 ^ 2) ^ 3) * ((2 * Real.pi) ^ 2 / (dx * dy)) := by
  have hkap' : 1e-20 ≤ lfKappaSq psi k1 k2 := hkap
  have hE := lfE_eq (c := c) (z := z) hL hcut (le_trans (by norm_num) hkap' : 1e-24 ≤ lfKappaSq psi k1 k2)
  unfold lfE at hE
  simp only [max_eq_left (le_trans (by norm_num) hkap' : (1e-24 : ℝ) ≤ lfKappaSq psi k1 k2)] at hE
  unfold lfPhi
  simp only
  rw [if_neg (not_lt.2 hk), max_eq_left hkap', hE, max_eq_left hd]
  have hE0 : 0 ≤ lfEdoc c L psi z k1 k2 := mul_nonneg hc (lfShape_nonneg _ (Real.sqrt_nonneg _))
  have hd0 : 0 ≤ dx * dy := le_trans (by norm_num) hd
  have := Real.pi_pos
  rw [max_eq_left (by positivity), mul_pow, Real.sq_sqrt (by positivity), div_pow, Real.sq_sqrt hd0]

/-- **C84** The amplitudes used to simulate the field and the integrands of the analytical spectra describe the same
spectral tensor: squared transfer functions equal the integrands times `(2 pi)^2 / (dx dy)`. -/
theorem C84_consistent {c L psi z dx dy k1 k2 : ℝ} (hc : 0 ≤ c) (hL : 0 < L) (hcut : 1e-30 ≤ (1 / L ^ 2) ^ (7 / 3 : ℝ))
    (hd : 1e-16 ≤ dx * dy) (hk : 1e-20 ≤ k1 ^ 2 + k2 ^ 2)
    (hkap : 1e-20 ≤ 2 * ((k1 * Real.cos psi) ^ 2 + (k2 * Real.sin psi) ^ 2)) :
    (lfPhi c L psi z dx dy k1 k2 * k2) ^ 2 = (2 * Real.pi) ^ 2 / (dx * dy) * lfIntegrand c L psi z 0 k2 k1 ∧
    (lfPhi c L psi z dx dy k1 k2 * k1) ^ 2 = (2 * Real.pi) ^ 2 / (dx * dy) * lfIntegrand c L psi z 1 k2 k1 := by
  obtain ⟨h0, h1, -⟩ := C74_documented (c := c) (z := z) hL hcut (le_trans (by norm_num) hkap) (le_trans (by norm_num) hk)
  have hpos : 0 < k1 ^ 2 + k2 ^ 2 := lt_of_lt_of_le (by norm_num) hk
  have hs := Real.sq_sqrt hpos.le
  have hs0 : 0 < Real.sqrt (k1 ^ 2 + k2 ^ 2) := Real.sqrt_pos.2 hpos
  rw [h0, h1, mul_pow (lfPhi c L psi z dx dy k1 k2), mul_pow (lfPhi c L psi z dx dy k1 k2), lfPhi_sq hc hL hcut hd hk hkap]
  set r := Real.sqrt (k1 ^ 2 + k2 ^ 2)
  have := Real.pi_pos
  have hd0 : dx * dy ≠ 0 := (lt_of_lt_of_le (by norm_num) hd).ne'
  rw [← hs]
  constructor <;> field_simp

/-- The hypotheses of C84 hold for the default parameters at a wavelength of one length scale. -/
example : (1e-30 : ℝ) ≤ (1 / (15000 : ℝ) ^ 2) ^ (7 / 3 : ℝ) := cut_of_le (by norm_num) (by norm_num)

end
end Verif
