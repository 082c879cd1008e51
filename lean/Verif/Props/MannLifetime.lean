import Verif.Lemmas.Hyp
import Verif.Props.Eddy
import Verif.Props.Kernels

/-!
# The Mann eddy lifetime with the true hypergeometric function (C89-C91)
-/

namespace Verif
open Fl Filter Topology MeasureTheory

noncomputable section

/-- The Mann lifetime as a real number. -/
def mannTau (hyp : ℝ → ℝ) (x : ℝ) : ℝ := x ^ (-2 / 3 : ℝ) / Real.sqrt (hyp (-(x ^ (-2 : ℝ))))

theorem neg_rpow_nonpos {x : ℝ} (hx : 0 < x) : -(x ^ (-2 : ℝ)) ≤ 0 := by
  have := Real.rpow_pos_of_pos hx (-2); linarith

variable {hyp : ℝ → ℝ}

theorem mannTau_eq (h : IsMannHyp hyp) {x : ℝ} (hx : 0 < x) : MannEddyLifetime hyp (fin x) = fin (mannTau hyp x) :=
  mann_pos hx (h.mann_hyp_pos (neg_rpow_nonpos hx))

theorem mannTau_pos (h : IsMannHyp hyp) {x : ℝ} (hx : 0 < x) : 0 < mannTau hyp x :=
  div_pos (Real.rpow_pos_of_pos hx _) (Real.sqrt_pos.2 (h.mann_hyp_pos (neg_rpow_nonpos hx)))

theorem mul_mannTau (h : IsMannHyp hyp) {x : ℝ} (hx : 0 < x) :
    x * mannTau hyp x = (x ^ (-2 / 3 : ℝ) * hyp (-(x ^ (-2 : ℝ)))) ^ (-1 / 2 : ℝ) := by
  have hh := h.mann_hyp_pos (neg_rpow_nonpos hx)
  rw [Real.mul_rpow (by positivity) hh.le, ← Real.rpow_mul hx.le, mannTau, Real.sqrt_eq_rpow]
  have e1 : x ^ (-2 / 3 * (-1 / 2) : ℝ) = x * x ^ (-2 / 3 : ℝ) := by
    rw [mul_comm x, ← Real.rpow_add_one hx.ne']; norm_num
  have e2 : hyp (-(x ^ (-2 : ℝ))) ^ (-1 / 2 : ℝ) = (hyp (-(x ^ (-2 : ℝ))) ^ (1 / 2 : ℝ))⁻¹ := by
    rw [← Real.rpow_neg hh.le]; norm_num
  rw [e1, e2]
  ring

/-- Mann's eddy lifetime (Mann 1994): the inverse of the wavenumber times the velocity of the eddies smaller than `1/κ`,
`κ^(-1) (2/3 ∫_κ^∞ E(p) dp)^(-1/2)`. -/
def Spec.eddyTurnover (E : ℝ → ℝ) (κ : ℝ) : ℝ := κ⁻¹ * (2 / 3 * ∫ p in Set.Ioi κ, E p) ^ (-1 / 2 : ℝ)

theorem vk_toReal {κ p : ℝ} (hκ : 0 < κ) (hp : p ∈ Set.Ioi κ) :
    (VKEnergySpectrum (fin p)).toReal = p ^ 4 / (1 + p ^ 2) ^ (17 / 6 : ℝ) := by
  have hp : 0 < p := lt_trans hκ hp
  rw [(C01_spectra_agree hp).1, toReal_fin]

/-- **C89** With the true hypergeometric function, `MannEddyLifetime(κ)` is Mann's eddy turnover time of the library's own
von Karman spectrum: `κ^(-1) (2/3 ∫_κ^∞ VKEnergySpectrum(p) dp)^(-1/2)`, the integral being finite. -/
theorem C89_turnover (h : IsMannHyp hyp) {κ : ℝ} (hκ : 0 < κ) :
    IntegrableOn (fun p => (VKEnergySpectrum (fin p)).toReal) (Set.Ioi κ) ∧
    0 < ∫ p in Set.Ioi κ, (VKEnergySpectrum (fin p)).toReal ∧
    MannEddyLifetime hyp (fin κ) = fin (Spec.eddyTurnover (fun p => (VKEnergySpectrum (fin p)).toReal) κ) := by
  obtain ⟨h1, h2⟩ := h.mann_integral hκ
  have e : ∫ p in Set.Ioi κ, (VKEnergySpectrum (fin p)).toReal =
      ∫ p in Set.Ioi κ, p ^ 4 / (1 + p ^ 2) ^ (17 / 6 : ℝ) :=
    setIntegral_congr_fun measurableSet_Ioi fun p hp => vk_toReal hκ hp
  refine ⟨h1.congr_fun (fun p hp => (vk_toReal hκ hp).symm) measurableSet_Ioi, ?_, ?_⟩
  · rw [e]
    have : 0 < κ ^ (-2 / 3 : ℝ) * hyp (-(κ ^ (-2 : ℝ))) :=
      mul_pos (Real.rpow_pos_of_pos hκ _) (h.mann_hyp_pos (neg_rpow_nonpos hκ))
    linarith
  · rw [mannTau_eq h hκ, Spec.eddyTurnover, e, ← h2, ← mul_mannTau h hκ]
    congr 1
    field_simp

/-- **C89** The lifetime used in the fit: `T` times the turnover time at `L |k|`. -/
theorem C89_lifetime (h : IsMannHyp hyp) {L : ℝ} (hL : 0 < L) (T : ℝ) {k : K3} (hk : k.vec ≠ 0) :
    eddyLifetime hyp .mann L T k =
      fin (T * Spec.eddyTurnover (fun p => (VKEnergySpectrum (fin p)).toReal)
        (L * Real.sqrt (k.k1 ^ 2 + k.k2 ^ 2 + k.k3 ^ 2))) := by
  have hkk : 0 < kkR k := by
    refine lt_of_le_of_ne (kkR_nonneg k) fun h => hk ?_
    obtain ⟨h1, h2, h3⟩ := kkR_eq_zero h.symm
    funext i; fin_cases i <;> simp [K3.vec, h1, h2, h3]
  have hx : 0 < L * Real.sqrt (kkR k) := mul_pos hL (Real.sqrt_pos.2 hkk)
  simp only [eddyLifetime, vecNorm_kkR, fin_mul_fin, (C89_turnover h hx).2.2, kkR_pow]

example : ∃ hyp, IsMannHyp hyp := exists_isMannHyp

/-- **C90** Bounds: the lifetime lies above the `κ^(-2/3)` law, by at most a factor `(1+κ^(-2))^(17/12)`. -/
theorem C90_bounds (h : IsMannHyp hyp) {κ : ℝ} (hκ : 0 < κ) : ∃ τ : ℝ, MannEddyLifetime hyp (fin κ) = fin τ ∧
    κ ^ (-2 / 3 : ℝ) ≤ τ ∧ τ ≤ κ ^ (-2 / 3 : ℝ) * (1 + κ ^ (-2 : ℝ)) ^ (17 / 12 : ℝ) := by
  have hh := h.mann_hyp_pos (neg_rpow_nonpos hκ)
  have hle := h.mann_hyp_le (neg_rpow_nonpos hκ)
  have hy : 0 < κ ^ (-2 : ℝ) := Real.rpow_pos_of_pos hκ _
  have hge := h.mann.ge (by norm_num) mann_notNegNat (by norm_num) hy.le
  have hp : 0 < κ ^ (-2 / 3 : ℝ) := Real.rpow_pos_of_pos hκ _
  have hs := Real.sqrt_pos.2 hh
  refine ⟨_, mannTau_eq h hκ, ?_, ?_⟩
  · rw [mannTau, le_div_iff₀ hs]
    have : Real.sqrt (hyp (-(κ ^ (-2 : ℝ)))) ≤ 1 := Real.sqrt_le_one.2 hle
    nlinarith
  · rw [mannTau, div_le_iff₀ hs, mul_assoc]
    have h1 : 1 ≤ (1 + κ ^ (-2 : ℝ)) ^ (17 / 12 : ℝ) * Real.sqrt (hyp (-(κ ^ (-2 : ℝ)))) := by
      have h2 : ((1 + κ ^ (-2 : ℝ)) ^ (17 / 12 : ℝ))⁻¹ ≤ Real.sqrt (hyp (-(κ ^ (-2 : ℝ)))) := by
        refine Real.le_sqrt_of_sq_le (le_trans (le_of_eq ?_) hge)
        rw [← Real.rpow_neg (by positivity), ← Real.rpow_natCast, ← Real.rpow_mul (by positivity)]
        norm_num
      have h3 : 0 < (1 + κ ^ (-2 : ℝ)) ^ (17 / 12 : ℝ) := by positivity
      calc (1:ℝ) = (1 + κ ^ (-2 : ℝ)) ^ (17 / 12 : ℝ) * ((1 + κ ^ (-2 : ℝ)) ^ (17 / 12 : ℝ))⁻¹ := by field_simp
        _ ≤ _ := by gcongr
    nlinarith

/-- **C90** Inertial range: `τ(κ) ~ κ^(-2/3)`. -/
theorem C90_high (h : IsMannHyp hyp) :
    Tendsto (fun κ : ℝ => (MannEddyLifetime hyp (fin κ)).toReal / κ ^ (-2 / 3 : ℝ)) atTop (𝓝 1) := by
  have h1 : Tendsto (fun κ : ℝ => 1 / Real.sqrt (hyp (-(κ ^ (-2 : ℝ))))) atTop (𝓝 (1 / Real.sqrt 1)) :=
    tendsto_const_nhds.div ((Real.continuous_sqrt.tendsto 1).comp h.mann_tendsto) (by simp)
  rw [Real.sqrt_one, div_one] at h1
  refine h1.congr' ?_
  filter_upwards [eventually_gt_atTop 0] with κ hκ
  have : 0 < κ ^ (-2 / 3 : ℝ) := Real.rpow_pos_of_pos hκ _
  rw [mannTau_eq h hκ, toReal_fin, mannTau]
  field_simp

theorem vk_integrable (h : IsMannHyp hyp) :
    IntegrableOn (fun p : ℝ => p ^ 4 / (1 + p ^ 2) ^ (17 / 6 : ℝ)) (Set.Ioi 0) := by
  have h1 := (h.mann_integral one_pos).1
  have hc : Continuous fun p : ℝ => p ^ 4 / (1 + p ^ 2) ^ (17 / 6 : ℝ) := by
    refine (continuous_pow 4).div ((continuous_const.add (continuous_pow 2)).rpow_const fun p => Or.inr (by norm_num)) ?_
    intro p
    positivity
  have h2 : IntegrableOn (fun p : ℝ => p ^ 4 / (1 + p ^ 2) ^ (17 / 6 : ℝ)) (Set.Ioc 0 1) :=
    (hc.integrableOn_Icc (a := 0) (b := 1)).mono_set Set.Ioc_subset_Icc_self
  rw [← Set.Ioc_union_Ioi_eq_Ioi (zero_le_one (α := ℝ))]
  exact h2.union h1

/-- **C90** Energy-containing range: `κ τ(κ)` tends to a finite positive constant, so `τ(κ) ~ C/κ` as `κ → 0`. -/
theorem C90_low (h : IsMannHyp hyp) :
    0 < ∫ p in Set.Ioi (0:ℝ), (VKEnergySpectrum (fin p)).toReal ∧
    Tendsto (fun κ : ℝ => κ * (MannEddyLifetime hyp (fin κ)).toReal) (𝓝[>] 0)
      (𝓝 ((2 / 3 * ∫ p in Set.Ioi (0:ℝ), (VKEnergySpectrum (fin p)).toReal) ^ (-1 / 2 : ℝ))) := by
  have e : ∫ p in Set.Ioi (0:ℝ), (VKEnergySpectrum (fin p)).toReal =
      ∫ p in Set.Ioi (0:ℝ), p ^ 4 / (1 + p ^ 2) ^ (17 / 6 : ℝ) :=
    setIntegral_congr_fun measurableSet_Ioi fun p hp => by
      rw [(C01_spectra_agree (Set.mem_Ioi.1 hp)).1, toReal_fin]
  rw [e]
  have hi := vk_integrable h
  have hpos : 0 < ∫ p in Set.Ioi (0:ℝ), p ^ 4 / (1 + p ^ 2) ^ (17 / 6 : ℝ) := by
    have h1 : ∫ p in Set.Ioi (1:ℝ), p ^ 4 / (1 + p ^ 2) ^ (17 / 6 : ℝ) ≤
        ∫ p in Set.Ioi (0:ℝ), p ^ 4 / (1 + p ^ 2) ^ (17 / 6 : ℝ) :=
      setIntegral_mono_set hi (Eventually.of_forall fun p => by positivity)
        (Set.Ioi_subset_Ioi zero_le_one).eventuallyLE
    have h2 := (h.mann_integral one_pos).2
    have h3 := h.mann_hyp_pos (neg_rpow_nonpos one_pos)
    rw [Real.one_rpow (-2 / 3), one_mul] at h2
    rw [h2] at h3
    linarith
  refine ⟨hpos, ?_⟩
  have hcov := aecover_Ioi_of_Ioi (μ := volume) (A := (0:ℝ)) (l := 𝓝[>] 0) (a := fun x : ℝ => x)
    (tendsto_id.mono_left nhdsWithin_le_nhds)
  have h1 := hcov.integral_tendsto_of_countably_generated hi
  have h2 : Tendsto (fun κ : ℝ => ∫ p in Set.Ioi κ, p ^ 4 / (1 + p ^ 2) ^ (17 / 6 : ℝ)) (𝓝[>] 0)
      (𝓝 (∫ p in Set.Ioi (0:ℝ), p ^ 4 / (1 + p ^ 2) ^ (17 / 6 : ℝ))) := by
    refine h1.congr' ?_
    filter_upwards [self_mem_nhdsWithin] with κ hκ
    rw [Measure.restrict_restrict measurableSet_Ioi, Set.inter_eq_left.2 (Set.Ioi_subset_Ioi (le_of_lt hκ))]
  have h3 := (h2.const_mul (2 / 3)).rpow_const (p := (-1 / 2 : ℝ)) (Or.inl (by positivity))
  refine h3.congr' ?_
  filter_upwards [self_mem_nhdsWithin] with κ hκ
  rw [mannTau_eq h hκ, toReal_fin, mul_mannTau h hκ, ← (h.mann_integral hκ).2]

/-- **C90** Between the two regimes: `κ^(2/3) τ` decreases and `κ τ` increases, strictly (so `τ` itself decreases
strictly, and every log-log secant has a slope strictly between `-1` and `-2/3`). -/
theorem C90_slopes (h : IsMannHyp hyp) {κ κ' : ℝ} (hκ : 0 < κ) (hlt : κ < κ') : ∃ τ τ' : ℝ,
    MannEddyLifetime hyp (fin κ) = fin τ ∧ MannEddyLifetime hyp (fin κ') = fin τ' ∧ 0 < τ' ∧ τ' < τ ∧
    κ' ^ (2 / 3 : ℝ) * τ' < κ ^ (2 / 3 : ℝ) * τ ∧ κ * τ < κ' * τ' ∧
    -1 < (Real.log τ' - Real.log τ) / (Real.log κ' - Real.log κ) ∧
    (Real.log τ' - Real.log τ) / (Real.log κ' - Real.log κ) < -2 / 3 := by
  have hκ' := hκ.trans hlt
  have hm : ∀ {x : ℝ}, 0 < x → x ^ (2 / 3 : ℝ) * mannTau hyp x = 1 / Real.sqrt (hyp (-(x ^ (-2 : ℝ)))) := by
    intro x hx
    rw [mannTau, ← mul_div_assoc, ← Real.rpow_add hx]
    norm_num
  have hA : κ' ^ (2 / 3 : ℝ) * mannTau hyp κ' < κ ^ (2 / 3 : ℝ) * mannTau hyp κ := by
    rw [hm hκ, hm hκ']
    have h1 : κ' ^ (-2 : ℝ) < κ ^ (-2 : ℝ) := Real.rpow_lt_rpow_of_neg hκ hlt (by norm_num)
    have h2 := h.mann_hyp_mono (Set.mem_Iic.2 (neg_rpow_nonpos hκ)) (Set.mem_Iic.2 (neg_rpow_nonpos hκ'))
      (neg_lt_neg h1)
    have h3 := h.mann_hyp_pos (neg_rpow_nonpos hκ)
    exact one_div_lt_one_div_of_lt (Real.sqrt_pos.2 h3) (Real.sqrt_lt_sqrt h3.le h2)
  have hB : κ * mannTau hyp κ < κ' * mannTau hyp κ' := by
    rw [mul_mannTau h hκ, mul_mannTau h hκ']
    have hanti : StrictAntiOn (fun x : ℝ => x ^ (-2 / 3 : ℝ) * hyp (-(x ^ (-2 : ℝ)))) (Set.Ioi 0) := by
      refine strictAntiOn_of_deriv_neg (convex_Ioi 0) (fun x hx => (h.mann_hasDerivAt hx).continuousAt.continuousWithinAt)
        ?_
      intro x hx
      rw [interior_Ioi] at hx
      have hx : 0 < x := hx
      rw [(h.mann_hasDerivAt hx).deriv]
      have : 0 < 2 / 3 * (x ^ 4 / (1 + x ^ 2) ^ (17 / 6 : ℝ)) := by positivity
      linarith
    exact Real.rpow_lt_rpow_of_neg
      (mul_pos (Real.rpow_pos_of_pos hκ' _) (h.mann_hyp_pos (neg_rpow_nonpos hκ'))) (hanti hκ hκ' hlt) (by norm_num)
  have p1 := mannTau_pos h hκ
  have p2 := mannTau_pos h hκ'
  have hlog : 0 < Real.log κ' - Real.log κ := by
    have := Real.log_lt_log hκ hlt; linarith
  refine ⟨_, _, mannTau_eq h hκ, mannTau_eq h hκ', p2, ?_, hA, hB, ?_, ?_⟩
  · have h1 : κ ^ (2 / 3 : ℝ) < κ' ^ (2 / 3 : ℝ) := Real.rpow_lt_rpow hκ.le hlt (by norm_num)
    have h2 : 0 < κ ^ (2 / 3 : ℝ) := Real.rpow_pos_of_pos hκ _
    by_contra hcon
    push Not at hcon
    nlinarith
  · rw [lt_div_iff₀ hlog]
    have := Real.log_lt_log (by positivity) hB
    rw [Real.log_mul hκ.ne' p1.ne', Real.log_mul hκ'.ne' p2.ne'] at this
    linarith
  · rw [div_lt_iff₀ hlog]
    have := Real.log_lt_log (by positivity) hA
    rw [Real.log_mul (by positivity) p1.ne', Real.log_mul (by positivity) p2.ne', Real.log_rpow hκ,
      Real.log_rpow hκ'] at this
    linarith

/-! ### The power-law approximation -/

theorem sum_map_nonneg {l : List ℝ} {f : ℝ → ℝ} (h : ∀ x ∈ l, 0 ≤ f x) : 0 ≤ (l.map f).sum :=
  List.sum_nonneg (by intro y hy; obtain ⟨x, hx, rfl⟩ := List.mem_map.1 hy; exact h x hx)

theorem sum_map_pos {l : List ℝ} {f : ℝ → ℝ} (h : ∀ x ∈ l, 0 ≤ f x) {x : ℝ} (hx : x ∈ l) (hp : 0 < f x) :
    0 < (l.map f).sum := by
  induction l with
  | nil => simp at hx
  | cons a l ih =>
    rw [List.map_cons, List.sum_cons]
    have h1 := h a (by simp)
    have h2 := sum_map_nonneg (l := l) (f := f) fun y hy => h y (by simp [hy])
    rcases List.mem_cons.1 hx with rfl | hx
    · linarith
    · have := ih (fun y hy => h y (by simp [hy])) hx
      linarith

theorem sum_map_sub_mul (l : List ℝ) (m c : ℝ) (f : ℝ → ℝ) :
    (l.map fun x => (x - m) * (f x - c)).sum = (l.map fun x => (x - m) * f x).sum - c * (l.sum - l.length * m) := by
  induction l with
  | nil => simp
  | cons a l ih => simp only [List.map_cons, List.sum_cons, List.length_cons]; rw [ih]; push_cast; ring

theorem sum_sub_mean {l : List ℝ} (hl : l ≠ []) : l.sum - l.length * meanL l = 0 := by
  have : (l.length : ℝ) ≠ 0 := by simpa using hl
  unfold meanL; field_simp; ring

/-- The covariance with a strictly increasing function is positive. -/
theorem cov_pos {l : List ℝ} {g : ℝ → ℝ} (hg : StrictMono g) {x : ℝ} (hx : x ∈ l) (hne : x ≠ meanL l) (c : ℝ) :
    0 < (l.map fun x => (x - meanL l) * (g x - c)).sum := by
  have hl : l ≠ [] := List.ne_nil_of_mem hx
  rw [sum_map_sub_mul, sum_sub_mean hl, mul_zero, sub_zero]
  have e : (l.map fun x => (x - meanL l) * g x).sum = (l.map fun x => (x - meanL l) * (g x - g (meanL l))).sum := by
    rw [sum_map_sub_mul, sum_sub_mean hl, mul_zero, sub_zero]
  rw [e]
  have key : ∀ y, y ≠ meanL l → 0 < (y - meanL l) * (g y - g (meanL l)) := by
    intro y hy
    rcases lt_or_gt_of_ne hy with h | h
    · exact mul_pos_of_neg_of_neg (by linarith) (by have := hg h; linarith)
    · exact mul_pos (by linarith) (by have := hg h; linarith)
  refine sum_map_pos (fun y _ => ?_) hx (key x hne)
  by_cases hy : y = meanL l
  · rw [hy]; simp
  · exact (key y hy).le

theorem zipWith_map_self {α β γ : Type*} (f : α → β → γ) (g : α → β) (l : List α) :
    List.zipWith f l (l.map g) = l.map fun x => f x (g x) := by
  induction l with
  | nil => rfl
  | cons a l ih => simp [ih]

/-- The regression slope of a function lies strictly between the bounds of its secant slopes. -/
theorem linReg_slope {l : List ℝ} {g : ℝ → ℝ} {m M : ℝ}
    (hg : ∀ s t, s < t → m * (t - s) < g t - g s ∧ g t - g s < M * (t - s)) {x : ℝ} (hx : x ∈ l) (hne : x ≠ meanL l) :
    m < (linReg l (l.map g)).1 ∧ (linReg l (l.map g)).1 < M := by
  have hpos : 0 < (l.map fun x => (x - meanL l) * (x - meanL l)).sum :=
    sum_map_pos (fun y _ => mul_self_nonneg _) hx (mul_self_pos.2 (sub_ne_zero.2 hne))
  have hsplit : ∀ (l' : List ℝ) (mu c d : ℝ), (l'.map fun x => (x - mu) * (g x - d * x - (c - d * mu))).sum =
      (l'.map fun x => (x - mu) * (g x - c)).sum - d * (l'.map fun x => (x - mu) * (x - mu)).sum := by
    intro l' mu c d
    induction l' with
    | nil => simp
    | cons a l' ih => simp only [List.map_cons, List.sum_cons]; rw [ih]; ring
  have h1 := cov_pos (g := fun x => g x - m * x) (fun s t hst => by have := (hg s t hst).1; simp only; linarith) hx hne
    (meanL (l.map g) - m * meanL l)
  have h2 := cov_pos (g := fun x => -(g x - M * x)) (fun s t hst => by have := (hg s t hst).2; simp only; linarith) hx hne
    (-(meanL (l.map g) - M * meanL l))
  have h2' : (l.map fun x => (x - meanL l) * (g x - M * x - (meanL (l.map g) - M * meanL l))).sum < 0 := by
    have e : (l.map fun x => (x - meanL l) * (-(g x - M * x) - -(meanL (l.map g) - M * meanL l))).sum =
        -(l.map fun x => (x - meanL l) * (g x - M * x - (meanL (l.map g) - M * meanL l))).sum := by
      have hneg : ∀ (l' : List ℝ) (F : ℝ → ℝ), (l'.map fun x => -F x).sum = -(l'.map F).sum := by
        intro l' F
        induction l' with
        | nil => simp
        | cons a l' ih => simp only [List.map_cons, List.sum_cons]; rw [ih]; ring
      rw [← hneg]
      congr 2
      funext x
      ring
    rw [e] at h2
    linarith
  rw [hsplit] at h1 h2'
  unfold linReg
  simp only [zipWith_map_self]
  rw [lt_div_iff₀ hpos, div_lt_iff₀ hpos]
  constructor <;> linarith

theorem logs_spread : ∃ x ∈ mannApproxNodes.map fun k => (Fl.log (fin k)).toReal,
    x ≠ meanL (mannApproxNodes.map fun k => (Fl.log (fin k)).toReal) := by
  by_contra hcon
  push Not at hcon
  refine logs_var ?_
  refine List.sum_eq_zero fun y hy => ?_
  obtain ⟨x, hx, rfl⟩ := List.mem_map.1 hy
  rw [hcon x hx]; simp

/-- **C91** Whatever the scales given at construction, the exponent found by the power-law fit of the Mann lifetime lies
strictly between `-1` and `-2/3`: it is neither of the two exponents of the true lifetime. -/
theorem C91_exponent (h : IsMannHyp hyp) {L0 T0 : ℝ} (hL0 : 0 < L0) (hT0 : 0 < T0) :
    -1 < (initMannApproximation hyp L0 T0).1 ∧ (initMannApproximation hyp L0 T0).1 < -2 / 3 := by
  set g : ℝ → ℝ := fun s => Real.log (T0 * mannTau hyp (L0 * Real.exp s)) with hgdef
  have e : (mannApproxNodes.map fun k => (Fl.log (fin T0 * MannEddyLifetime hyp (fin L0 * fin k))).toReal) =
      (mannApproxNodes.map fun k => (Fl.log (fin k)).toReal).map g := by
    rw [List.map_map]
    apply List.map_congr_left
    intro x hx
    have hx := nodes_pos hx
    have hLx := mul_pos hL0 hx
    simp only [Function.comp, fin_mul_fin, mannTau_eq h hLx, hgdef]
    rw [log_fin (mul_pos hT0 (mannTau_pos h hLx)), toReal_fin, log_fin hx, toReal_fin, Real.exp_log hx]
  obtain ⟨x, hx, hne⟩ := logs_spread
  unfold initMannApproximation
  simp only [e]
  refine linReg_slope ?_ hx hne
  intro s t hst
  have hs : 0 < L0 * Real.exp s := by positivity
  have ht : 0 < L0 * Real.exp t := by positivity
  obtain ⟨τ, τ', h1, h2, hp, -, -, -, h3, h4⟩ := C90_slopes h hs
    (mul_lt_mul_of_pos_left (Real.exp_lt_exp.2 hst) hL0)
  rw [mannTau_eq h hs, fin_inj] at h1
  rw [mannTau_eq h ht, fin_inj] at h2
  subst h1 h2
  have elog : Real.log (L0 * Real.exp t) - Real.log (L0 * Real.exp s) = t - s := by
    rw [Real.log_mul hL0.ne' (by positivity), Real.log_mul hL0.ne' (by positivity), Real.log_exp, Real.log_exp]; ring
  have hst' : 0 < t - s := by linarith
  rw [elog, lt_div_iff₀ hst'] at h3
  rw [elog, div_lt_iff₀ hst'] at h4
  simp only [hgdef]
  rw [Real.log_mul hT0.ne' (mannTau_pos h ht).ne', Real.log_mul hT0.ne' (mannTau_pos h hs).ne']
  constructor <;> linarith

theorem norm_smul_pos {k : K3} (hk : k.vec ≠ 0) {c : ℝ} (hc : 0 < c) :
    0 < vecNorm [k.k1, k.k2, k.k3] ∧
    vecNorm [(k.smul c).k1, (k.smul c).k2, (k.smul c).k3] = c * vecNorm [k.k1, k.k2, k.k3] := by
  have hkk : 0 < kkR k := by
    refine lt_of_le_of_ne (kkR_nonneg k) fun h => hk ?_
    obtain ⟨h1, h2, h3⟩ := kkR_eq_zero h.symm
    funext i; fin_cases i <;> simp [K3.vec, h1, h2, h3]
  exact ⟨by rw [vecNorm_kkR]; exact Real.sqrt_pos.2 hkk, vecNorm_smul hc.le k⟩

theorem approx_ratio (h : IsMannHyp hyp) {L0 T0 L T : ℝ} (hL : 0 < L) (hT : T ≠ 0) {k : K3} (hk : k.vec ≠ 0) {c : ℝ}
    (hc : 0 < c) :
    (mannApproxLifetime hyp L0 T0 L T (k.smul c)).toReal / (eddyLifetime hyp .mann L T (k.smul c)).toReal =
      Real.exp (initMannApproximation hyp L0 T0).2 *
        (c * (L * vecNorm [k.k1, k.k2, k.k3])) ^ (initMannApproximation hyp L0 T0).1 /
          mannTau hyp (c * (L * vecNorm [k.k1, k.k2, k.k3])) := by
  obtain ⟨hn, e⟩ := norm_smul_pos hk hc
  have hx : 0 < c * (L * vecNorm [k.k1, k.k2, k.k3]) := by positivity
  have e2 : L * (c * vecNorm [k.k1, k.k2, k.k3]) = c * (L * vecNorm [k.k1, k.k2, k.k3]) := by ring
  simp only [mannApproxLifetime, eddyLifetime, e, fin_mul_fin, e2, mannTau_eq h hx, Mann_linear_exponential_approx,
    log_fin hx, fin_add_fin, exp_fin, toReal_fin]
  rw [Real.exp_add, mul_comm _ (Real.log _), ← Real.rpow_def_of_pos hx, mul_div_mul_left _ _ hT]
  ring

/-- **C91** Hence the approximation falls below the true lifetime without bound at both ends of the wavenumber axis: along
every direction the ratio `MANN_APPROX / MANN` tends to `0` as `|k| → ∞` and as `|k| → 0`. -/
theorem C91_ends (h : IsMannHyp hyp) {L0 T0 L T : ℝ} (hL0 : 0 < L0) (hT0 : 0 < T0) (hL : 0 < L) (hT : T ≠ 0) {k : K3}
    (hk : k.vec ≠ 0) :
    Tendsto (fun c : ℝ => (mannApproxLifetime hyp L0 T0 L T (k.smul c)).toReal /
      (eddyLifetime hyp .mann L T (k.smul c)).toReal) atTop (𝓝 0) ∧
    Tendsto (fun c : ℝ => (mannApproxLifetime hyp L0 T0 L T (k.smul c)).toReal /
      (eddyLifetime hyp .mann L T (k.smul c)).toReal) (𝓝[>] 0) (𝓝 0) := by
  obtain ⟨ha, hb⟩ := C91_exponent h hL0 hT0
  have hn := (norm_smul_pos hk one_pos).1
  have hq : 0 < L * vecNorm [k.k1, k.k2, k.k3] := mul_pos hL hn
  set q := L * vecNorm [k.k1, k.k2, k.k3] with hqd
  set α := (initMannApproximation hyp L0 T0).1 with hα
  set B := Real.exp (initMannApproximation hyp L0 T0).2 with hB
  constructor
  · have t1 : Tendsto (fun c : ℝ => c * q) atTop atTop := tendsto_id.atTop_mul_const hq
    have t2 : Tendsto (fun x : ℝ => x ^ (α + 2 / 3)) atTop (𝓝 0) := by
      have := tendsto_rpow_neg_atTop (y := -(α + 2 / 3)) (by linarith)
      simpa using this
    have t3 := (t2.const_mul B).div (C90_high h) one_ne_zero
    rw [mul_zero, zero_div] at t3
    refine (t3.comp t1).congr' ?_
    filter_upwards [eventually_gt_atTop 0] with c hc
    have hx : 0 < c * q := by positivity
    rw [approx_ratio h hL hT hk hc, ← hqd, ← hα, ← hB]
    simp only [Function.comp_apply, Pi.div_apply]
    rw [mannTau_eq h hx, toReal_fin, Real.rpow_add hx]
    have e : (c * q) ^ (2 / 3 : ℝ) * (c * q) ^ (-2 / 3 : ℝ) = 1 := by
      rw [← Real.rpow_add hx]; norm_num
    rw [div_div_eq_mul_div]
    congr 1
    linear_combination B * (c * q) ^ α * e
  · have t1 : Tendsto (fun c : ℝ => c * q) (𝓝[>] 0) (𝓝[>] 0) := by
      refine tendsto_nhdsWithin_iff.2 ⟨?_, ?_⟩
      · have : Tendsto (fun c : ℝ => c * q) (𝓝 0) (𝓝 (0 * q)) := tendsto_id.mul_const q
        rw [zero_mul] at this
        exact this.mono_left nhdsWithin_le_nhds
      · filter_upwards [self_mem_nhdsWithin] with c hc
        exact mul_pos hc hq
    have t2 : Tendsto (fun x : ℝ => x ^ (α + 1)) (𝓝[>] 0) (𝓝 0) := by
      have := (Real.continuousAt_rpow_const 0 (α + 1) (Or.inr (by linarith))).tendsto
      rw [Real.zero_rpow (by linarith)] at this
      exact this.mono_left nhdsWithin_le_nhds
    obtain ⟨hpos, hl⟩ := C90_low h
    have t3 := (t2.const_mul B).div hl (Real.rpow_pos_of_pos (by positivity) _).ne'
    rw [mul_zero, zero_div] at t3
    refine (t3.comp t1).congr' ?_
    filter_upwards [self_mem_nhdsWithin] with c hc
    have hc : 0 < c := hc
    have hx : 0 < c * q := by positivity
    rw [approx_ratio h hL hT hk hc, ← hqd, ← hα, ← hB]
    simp only [Function.comp_apply, Pi.div_apply]
    rw [mannTau_eq h hx, toReal_fin, Real.rpow_add_one hx.ne']
    have h2 := (mannTau_pos h hx).ne'
    field_simp

/-- The hypotheses of C91 can be met. -/
example : ∃ (hyp : ℝ → ℝ) (k : K3), IsMannHyp hyp ∧ k.vec ≠ 0 := by
  obtain ⟨hyp, h⟩ := exists_isMannHyp
  exact ⟨hyp, ⟨1, 2, 0⟩, h, fun h => by have := congrFun h 0; simp [K3.vec] at this⟩

/-! ### Properties stated for an arbitrary positive function hold for the true one -/

/-- **C05** for the true function: `Gamma` enters MANN_APPROX squared. -/
theorem C05_gamma_squared_true (h : IsMannHyp hyp) {L0 T0 c : ℝ} (hL0 : 0 < L0) (hT0 : 0 < T0) (hc : 0 < c) {k : K3}
    (hk : k.vec ≠ 0) :
    mannApproxLifetime hyp L0 (c * T0) L0 (c * T0) k = fin (c ^ 2) * mannApproxLifetime hyp L0 T0 L0 T0 k :=
  C05_gamma_squared hyp (fun _ hx => h.mann_hyp_pos hx.le) hL0 hT0 hc hk

end
end Verif
