import Verif.Lemmas.Eddy
import Verif.Props.Kernels

/-!
# Energy spectra, eddy lifetimes and TauNet: C01 - C09, C16
-/

namespace Verif
open Fl Filter Topology

noncomputable section

/-- **C01** The three energy spectra agree at every positive argument. -/
theorem C01_spectra_agree {x : ℝ} (hx : 0 < x) :
    VKEnergySpectrum (fin x) = fin (x ^ 4 / (1 + x ^ 2) ^ (17 / 6 : ℝ)) ∧
    VKLike_EnergySpectrum (fin x) = fin (x ^ 4 / (1 + x ^ 2) ^ (17 / 6 : ℝ)) ∧
    Learnable_EnergySpectrum (fin x) 4 (17 / 6) = fin (x ^ 4 / (1 + x ^ 2) ^ (17 / 6 : ℝ)) := by
  have h1 : 0 < 1 + x * x := by positivity
  have h1' : (1 + x * x) = 1 + x ^ 2 := by ring
  have hne := (Real.rpow_pos_of_pos h1 (17 / 6 : ℝ)).ne'
  have hs : 0 < Real.sqrt (1 + x * x) := Real.sqrt_pos.2 h1
  refine ⟨?_, ?_, ?_⟩
  · unfold VKEnergySpectrum
    simp only [one_def, fin_mul_fin, fin_add_fin, pow_fin _ h1, fin_div_fin _ hne]
    rw [h1']; congr 2; ring
  · unfold VKLike_EnergySpectrum
    simp only [one_def, fin_mul_fin, fin_add_fin, pow_fin _ hx, sqrt_fin h1.le, fin_div_fin _ hs.ne',
      pow_fin _ (div_pos hx hs)]
    congr 1
    rw [Real.div_rpow hx.le hs.le, Real.sqrt_eq_rpow, ← Real.rpow_mul h1.le, ← mul_div_assoc, ← Real.rpow_add hx]
    rw [show (-5 / 3 + 17 / 3 : ℝ) = (4 : ℕ) by norm_num, Real.rpow_natCast,
      show (1 / 2 * (17 / 3) : ℝ) = 17 / 6 by norm_num, h1']
  · rw [learnable_pos hx, h1', show (4 : ℝ) = ((4 : ℕ) : ℝ) by norm_num, Real.rpow_natCast]

/-- **C01** At zero the plain form returns 0 while the "like" form (the one the fitter uses) returns NaN. -/
theorem C01_at_zero :
    VKEnergySpectrum (fin 0) = fin 0 ∧ VKLike_EnergySpectrum (fin 0) = nan ∧
    Learnable_EnergySpectrum (fin 0) 4 (17 / 6) = fin 0 := by
  refine ⟨?_, ?_, ?_⟩
  · unfold VKEnergySpectrum
    simp [one_def, pow_fin, fin_div_fin]
  · unfold VKLike_EnergySpectrum
    rw [pow_fin_zero_neg (by norm_num)]
    simp [one_def, sqrt_fin, fin_div_fin, pow_fin_zero_pos, pinf_mul_fin]
  · unfold Learnable_EnergySpectrum
    rw [pow_fin_zero_pos (by norm_num)]
    simp [one_def, pow_fin, fin_div_fin]

example : (0:ℝ) < 3.7 := by norm_num

/-- **C02** The learnable spectrum is finite and positive on positive arguments. -/
theorem C02_positive (p q : ℝ) {x : ℝ} (hx : 0 < x) :
    ∃ e, 0 < e ∧ Learnable_EnergySpectrum (fin x) p q = fin e := by
  have h1 : 0 < 1 + x * x := by positivity
  exact ⟨_, div_pos (Real.rpow_pos_of_pos hx _) (Real.rpow_pos_of_pos h1 _), learnable_pos hx p q⟩

/-- **C02** Low-wavenumber slope `p`: `E(x) / x^p → 1` as `x → 0+`. -/
theorem C02_low_slope (p q : ℝ) :
    Tendsto (fun x : ℝ => (Learnable_EnergySpectrum (fin x) p q).toReal / x ^ p) (𝓝[>] 0) (𝓝 1) := by
  have h : Tendsto (fun x : ℝ => ((1 + x * x) ^ q)⁻¹) (𝓝[>] 0) (𝓝 1) := by
    have hc : ContinuousAt (fun x : ℝ => ((1 + x * x) ^ q)⁻¹) 0 := by
      refine ContinuousAt.inv₀ (ContinuousAt.rpow_const (by fun_prop) (Or.inl (by norm_num))) ?_
      simp
    have := hc.tendsto
    simp at this
    exact this.mono_left nhdsWithin_le_nhds
  refine h.congr' ?_
  filter_upwards [self_mem_nhdsWithin] with x hx
  rw [learnable_pos hx, toReal_fin]
  have := (Real.rpow_pos_of_pos (show (0:ℝ) < x from hx) p).ne'
  field_simp

/-- **C02** High-wavenumber slope `p - 2q`: `E(x) / x^(p-2q) → 1` as `x → ∞`. -/
theorem C02_high_slope (p q : ℝ) :
    Tendsto (fun x : ℝ => (Learnable_EnergySpectrum (fin x) p q).toReal / x ^ (p - 2 * q)) atTop (𝓝 1) := by
  have h : Tendsto (fun x : ℝ => ((1 + (x⁻¹) ^ 2) ^ q)⁻¹) atTop (𝓝 1) := by
    have hc : ContinuousAt (fun y : ℝ => ((1 + y ^ 2) ^ q)⁻¹) 0 := by
      refine ContinuousAt.inv₀ (ContinuousAt.rpow_const (by fun_prop) (Or.inl (by norm_num))) ?_
      simp
    have := hc.tendsto.comp tendsto_inv_atTop_zero
    simpa [Function.comp_def] using this
  refine h.congr' ?_
  filter_upwards [eventually_gt_atTop (0:ℝ)] with x hx
  rw [learnable_pos hx, toReal_fin, Real.rpow_sub hx]
  have h1 : 0 < 1 + x⁻¹ ^ 2 := by positivity
  have e : 1 + x * x = x ^ (2:ℝ) * (1 + x⁻¹ ^ 2) := by
    rw [Real.rpow_two]; field_simp; ring
  rw [e, Real.mul_rpow (by positivity) h1.le, ← Real.rpow_mul hx.le]
  have := (Real.rpow_pos_of_pos hx p).ne'
  have := (Real.rpow_pos_of_pos hx (2 * q)).ne'
  have := (Real.rpow_pos_of_pos h1 q).ne'
  field_simp

/-- **C02** With the default exponents `p = 4`, `q = 17/6` the inertial slope is exactly `-5/3`. -/
theorem C02_default_slope :
    Tendsto (fun x : ℝ => (VKEnergySpectrum (fin x)).toReal / x ^ (-5 / 3 : ℝ)) atTop (𝓝 1) := by
  have h := C02_high_slope 4 (17 / 6)
  rw [show (4 - 2 * (17 / 6) : ℝ) = -5 / 3 by norm_num] at h
  refine h.congr' ?_
  filter_upwards [eventually_gt_atTop (0:ℝ)] with x hx
  obtain ⟨h1, -, h3⟩ := C01_spectra_agree hx
  rw [h1, h3]

/-- **C03** Generator and fitter use the same Mann eddy lifetime at every non-zero wavevector, whatever the values of
the hypergeometric function. -/
theorem C03_mann_lifetime_agrees (hyp : ℝ → ℝ) {L : ℝ} (hL : 0 < L) (G : ℝ) {k : K3} (hk : k.vec ≠ 0) :
    mannBeta hyp L G k = eddyLifetime hyp .mann L G k := by
  have hkk : 0 < kkR k := by
    refine lt_of_le_of_ne (kkR_nonneg k) fun h => hk ?_
    obtain ⟨h1, h2, h3⟩ := kkR_eq_zero h.symm
    funext i; fin_cases i <;> simp [K3.vec, h1, h2, h3]
  have hn : 0 < Real.sqrt (kkR k) := Real.sqrt_pos.2 hkk
  have hx : 0 < L * Real.sqrt (kkR k) := mul_pos hL hn
  have hq : 0 < kkR k * L ^ 2 := by positivity
  have e1 : kkR k * L ^ 2 = (L * Real.sqrt (kkR k)) ^ (2:ℝ) := by
    rw [Real.rpow_two, mul_pow, Real.sq_sqrt hkk.le]; ring
  have e2 : (kkR k * L ^ 2) ^ (-1 / 3 : ℝ) = (L * Real.sqrt (kkR k)) ^ (-2 / 3 : ℝ) := by
    rw [e1, ← Real.rpow_mul hx.le]; norm_num
  have e3 : -1 / (kkR k * L ^ 2) = -((L * Real.sqrt (kkR k)) ^ (-2 : ℝ)) := by
    rw [e1, Real.rpow_neg hx.le]; field_simp
  unfold mannBeta eddyLifetime MannEddyLifetime
  simp only [kkR_pow, vecNorm_kkR, hkk.ne', if_false, fin_mul_fin, fin_div_fin _ hq.ne', pow_fin _ hq, pow_fin _ hx,
    neg_fin, e2, e3, liftR]
  generalize hyp (-((L * Real.sqrt (kkR k)) ^ (-2 : ℝ))) = y
  have hp : 0 < (L * Real.sqrt (kkR k)) ^ (-2 / 3 : ℝ) := Real.rpow_pos_of_pos hx _
  generalize (L * Real.sqrt (kkR k)) ^ (-2 / 3 : ℝ) = w at hp
  rcases lt_trichotomy y 0 with h | h | h
  · simp [Fl.sqrt, h]
  · subst h
    rw [sqrt_fin le_rfl, Real.sqrt_zero, fin_div_zero, fin_div_zero, infMul_pos hp, fin_mul_pinf]
    rcases lt_trichotomy G 0 with hG | hG | hG
    · rw [infMul_neg hG, infMul_neg (mul_neg_of_neg_of_pos hG hp)]
    · simp [hG]
    · rw [infMul_pos hG, infMul_pos (mul_pos hG hp)]
  · rw [sqrt_fin h.le, fin_div_fin _ (Real.sqrt_pos.2 h).ne', fin_div_fin _ (Real.sqrt_pos.2 h).ne', fin_mul_fin,
      mul_div_assoc]

example : (K3.mk 0 0 1).vec ≠ 0 := fun h => by have := congrFun h 2; simp [K3.vec] at this

/-- Scaling a wavevector. -/
def K3.smul (c : ℝ) (k : K3) : K3 := ⟨c * k.k1, c * k.k2, c * k.k3⟩

/-- **C04** Except for `MANN_APPROX`, the eddy lifetime at scales `(L,T)` is `T` times the unit-scale lifetime at `L k`. -/
theorem C04_scaling (hyp : ℝ → ℝ) (ty : EddyType) (hty : ∀ c i, ty ≠ .mannApprox c i) {L : ℝ} (hL : 0 < L) (T : ℝ)
    (k : K3) :
    eddyLifetime hyp ty L T k = fin T * eddyLifetime hyp ty 1 1 (k.smul L) := by
  have hn : fin L * fin (vecNorm [k.k1, k.k2, k.k3]) =
      fin 1 * fin (vecNorm [(k.smul L).k1, (k.smul L).k2, (k.smul L).k3]) := by
    simp only [K3.smul, vecNorm_smul hL.le, fin_mul_fin, one_mul]
  unfold eddyLifetime
  simp only [one_mul_fl]
  simp only [one_mul_fl] at hn
  rw [hn]
  cases ty with
  | mannApprox c i => exact absurd rfl (hty c i)
  | taunet net => simp [K3.smul, mul_comm]
  | _ => rfl

/-- **C04** Hence multiplying `k` and dividing `L` by the same positive factor changes nothing. -/
theorem C04_similarity (hyp : ℝ → ℝ) (ty : EddyType) (hty : ∀ c i, ty ≠ .mannApprox c i) {L c : ℝ} (hL : 0 < L)
    (hc : 0 < c) (T : ℝ) (k : K3) :
    eddyLifetime hyp ty (L / c) T (k.smul c) = eddyLifetime hyp ty L T k := by
  rw [C04_scaling hyp ty hty (div_pos hL hc), C04_scaling hyp ty hty hL]
  congr 2
  simp only [K3.smul]
  have := hc.ne'
  congr 1 <;> field_simp

/-- **C04** Values of the two elementary lifetimes. -/
theorem C04_values (hyp : ℝ → ℝ) {L : ℝ} (hL : 0 < L) (T : ℝ) {k : K3} (hk : k.vec ≠ 0) :
    eddyLifetime hyp .const L T k = fin T ∧
    eddyLifetime hyp .twothird L T k =
      fin (T * (L * Real.sqrt (k.k1 ^ 2 + k.k2 ^ 2 + k.k3 ^ 2)) ^ (-2 / 3 : ℝ)) := by
  have hkk : 0 < kkR k := by
    refine lt_of_le_of_ne (kkR_nonneg k) fun h => hk ?_
    obtain ⟨h1, h2, h3⟩ := kkR_eq_zero h.symm
    funext i; fin_cases i <;> simp [K3.vec, h1, h2, h3]
  have hx : 0 < L * Real.sqrt (kkR k) := mul_pos hL (Real.sqrt_pos.2 hkk)
  constructor
  · simp [eddyLifetime]
  · simp only [eddyLifetime, vecNorm_kkR, kkR_pow, fin_mul_fin, pow_fin _ hx]

example : ∀ c i, EddyType.twothird ≠ .mannApprox c i := by intro c i h; cases h

/-- The MANN_APPROX regression on data that lie exactly on a line. -/
theorem linReg_affine (xs : List ℝ) (a c : ℝ)
    (hvar : (xs.map fun x => (x - meanL xs) * (x - meanL xs)).sum ≠ 0) (hne : xs ≠ []) :
    linReg xs (xs.map fun x => c + a * x) = (a, c) := by
  have hlen : (xs.length : ℝ) ≠ 0 := by simpa using hne
  have hsum : ∀ l : List ℝ, (l.map fun x => c + a * x).sum = c * l.length + a * l.sum := by
    intro l
    induction l with
    | nil => simp
    | cons x l ih => simp [ih]; ring
  have hm : meanL (xs.map fun x => c + a * x) = c + a * meanL xs := by
    unfold meanL
    rw [hsum, List.length_map]
    field_simp
  have hz : ∀ (m : ℝ) (l : List ℝ), (List.zipWith (fun x y => (x - m) * (y - (c + a * m))) l
      (l.map fun x => c + a * x)).sum = a * (l.map fun x => (x - m) * (x - m)).sum := by
    intro m l
    induction l with
    | nil => simp
    | cons x l ih => simp [ih]; ring
  unfold linReg
  simp only [hm]
  rw [hz, mul_div_assoc, div_self hvar]
  simp

/-- Adding a constant to the targets only moves the intercept. -/
theorem linReg_shift (xs ys : List ℝ) (c : ℝ) (hne : ys ≠ []) :
    linReg xs (ys.map fun y => c + y) = ((linReg xs ys).1, c + (linReg xs ys).2) := by
  have hlen : (ys.length : ℝ) ≠ 0 := by simpa using hne
  have hsum : ∀ l : List ℝ, (l.map fun x => c + x).sum = c * l.length + l.sum := by
    intro l
    induction l with
    | nil => simp
    | cons x l ih => simp [ih]; ring
  have hm : meanL (ys.map fun y => c + y) = c + meanL ys := by
    unfold meanL
    rw [hsum, List.length_map]
    field_simp
  have hz : ∀ (m m' : ℝ) (l l' : List ℝ), (List.zipWith (fun x y => (x - m) * (y - (c + m'))) l
      (l'.map fun y => c + y)).sum = (List.zipWith (fun x y => (x - m) * (y - m')) l l').sum := by
    intro m m' l
    induction l with
    | nil => simp
    | cons x l ih =>
      intro l'
      cases l' with
      | nil => simp
      | cons y l' => simp [ih]
  unfold linReg
  simp only [hm, hz]
  rw [add_sub_assoc]

theorem nodes_pos {x : ℝ} (hx : x ∈ mannApproxNodes) : 0 < x := by
  unfold mannApproxNodes logspace at hx
  obtain ⟨y, -, rfl⟩ := List.mem_map.1 hx
  positivity

theorem nodes_ne_nil : mannApproxNodes ≠ [] := by
  simp [mannApproxNodes, logspace, linspace, List.range_succ]

theorem sum_sq_zero (l : List ℝ) (m : ℝ) (h : (l.map fun x => (x - m) * (x - m)).sum = 0) : ∀ x ∈ l, x = m := by
  induction l with
  | nil => simp
  | cons a l ih =>
    simp only [List.map_cons, List.sum_cons] at h
    have h1 : 0 ≤ (l.map fun x => (x - m) * (x - m)).sum :=
      List.sum_nonneg (by intro x hx; obtain ⟨y, -, rfl⟩ := List.mem_map.1 hx; exact mul_self_nonneg _)
    have h2 := mul_self_nonneg (a - m)
    have ha : (a - m) * (a - m) = 0 := by linarith
    have hr : (l.map fun x => (x - m) * (x - m)).sum = 0 := by linarith
    intro x hx
    rcases List.mem_cons.1 hx with rfl | hx
    · have := mul_self_eq_zero.1 ha; linarith
    · exact ih hr x hx

theorem logs_var : ((mannApproxNodes.map fun k => (Fl.log (fin k)).toReal).map fun x =>
    (x - meanL (mannApproxNodes.map fun k => (Fl.log (fin k)).toReal)) *
      (x - meanL (mannApproxNodes.map fun k => (Fl.log (fin k)).toReal))).sum ≠ 0 := by
  intro h
  have hall := sum_sq_zero _ _ h
  have hmem : ∀ i : ℕ, i < 50 → (10 : ℝ) ^ ((-3 : ℝ) + (3 - -3) * (i : ℝ) / (((50 : ℕ) : ℝ) - 1)) ∈ mannApproxNodes := by
    intro i hi
    unfold mannApproxNodes logspace linspace
    rw [List.map_map]
    exact List.mem_map.2 ⟨i, List.mem_range.2 hi, rfl⟩
  have h0 := hall _ (List.mem_map.2 ⟨_, hmem 0 (by norm_num), rfl⟩)
  have h1 := hall _ (List.mem_map.2 ⟨_, hmem 49 (by norm_num), rfl⟩)
  rw [log_fin (by positivity), toReal_fin, Real.log_rpow (by norm_num)] at h0 h1
  have h10 : 0 < Real.log 10 := Real.log_pos (by norm_num)
  rw [← h1] at h0
  have := mul_right_cancel₀ h10.ne' h0
  norm_num at this

/-- **C05** (disagreement) If the Mann lifetime is exactly a power law `A x^p` — the case the log-log regression
represents exactly — the MANN_APPROX lifetime is `T0 * L0^p` times the MANN lifetime (`L0`, `T0` the scales given at
construction): the scales are counted twice. -/
theorem C05_double_scaling (hyp : ℝ → ℝ) {A L0 T0 L T : ℝ} (p : ℝ) (hA : 0 < A) (hL0 : 0 < L0) (hT0 : 0 < T0)
    (hL : 0 < L) (hpow : ∀ x > 0, MannEddyLifetime hyp (fin x) = fin (A * x ^ p)) {k : K3} (hk : k.vec ≠ 0) :
    mannApproxLifetime hyp L0 T0 L T k = fin (T0 * L0 ^ p) * eddyLifetime hyp .mann L T k := by
  have hkk : 0 < kkR k := by
    refine lt_of_le_of_ne (kkR_nonneg k) fun h => hk ?_
    obtain ⟨h1, h2, h3⟩ := kkR_eq_zero h.symm
    funext i; fin_cases i <;> simp [K3.vec, h1, h2, h3]
  have hx : 0 < L * Real.sqrt (kkR k) := mul_pos hL (Real.sqrt_pos.2 hkk)
  have hreg : initMannApproximation hyp L0 T0 = (p, Real.log (T0 * A * L0 ^ p)) := by
    unfold initMannApproximation
    have e : (mannApproxNodes.map fun k => (Fl.log (fin T0 * MannEddyLifetime hyp (fin L0 * fin k))).toReal) =
        (mannApproxNodes.map fun k => (Fl.log (fin k)).toReal).map
          fun x => Real.log (T0 * A * L0 ^ p) + p * x := by
      rw [List.map_map]
      apply List.map_congr_left
      intro x hx
      have hx := nodes_pos hx
      have hp1 : 0 < L0 ^ p := Real.rpow_pos_of_pos hL0 p
      have hp2 : 0 < x ^ p := Real.rpow_pos_of_pos hx p
      simp only [Function.comp, fin_mul_fin, hpow _ (mul_pos hL0 hx), Real.mul_rpow hL0.le hx.le]
      rw [log_fin (by positivity), log_fin hx, toReal_fin, toReal_fin,
        show T0 * (A * (L0 ^ p * x ^ p)) = (T0 * A * L0 ^ p) * x ^ p by ring,
        Real.log_mul (by positivity) (by positivity), Real.log_rpow hx]
    simp only [e]
    exact linReg_affine _ _ _ logs_var (by simpa using nodes_ne_nil)
  have hp1 : 0 < L0 ^ p := Real.rpow_pos_of_pos hL0 p
  unfold mannApproxLifetime
  rw [hreg]
  simp only [eddyLifetime, Mann_linear_exponential_approx, vecNorm_kkR, fin_mul_fin, hpow _ hx, log_fin hx,
    fin_add_fin, exp_fin]
  rw [Real.exp_add, Real.exp_log (by positivity), mul_comm p, ← Real.rpow_def_of_pos hx]
  congr 1; ring

/-- **C05** Part that holds: with unit scales at construction the approximation reproduces the power law. -/
theorem C05_unit_scales_partial (hyp : ℝ → ℝ) {A L T : ℝ} (p : ℝ) (hA : 0 < A)
    (hL : 0 < L) (hpow : ∀ x > 0, MannEddyLifetime hyp (fin x) = fin (A * x ^ p)) {k : K3} (hk : k.vec ≠ 0) :
    mannApproxLifetime hyp 1 1 L T k = eddyLifetime hyp .mann L T k := by
  rw [C05_double_scaling hyp p hA one_pos one_pos hL hpow hk]
  simp [one_mul_fl]

/-- **C05** The claim fails: a time scale `2` given at construction doubles the lifetime a second time. -/
theorem C05_disproof : ¬ ∀ (hyp : ℝ → ℝ) (A p L0 T0 : ℝ), 0 < A → 0 < L0 → 0 < T0 →
    (∀ x > 0, MannEddyLifetime hyp (fin x) = fin (A * x ^ p)) →
    ∀ k : K3, k.vec ≠ 0 → mannApproxLifetime hyp L0 T0 L0 T0 k = eddyLifetime hyp .mann L0 T0 k := by
  intro h
  have hpow : ∀ x > (0:ℝ), MannEddyLifetime (fun _ => 1) (fin x) = fin (1 * x ^ (-2 / 3 : ℝ)) := by
    intro x hx; rw [mann_pos hx one_pos]; simp
  have hk : (K3.mk 1 0 0).vec ≠ 0 := fun h => by have := congrFun h 0; simp [K3.vec] at this
  have h1 := h (fun _ => 1) 1 (-2 / 3) 1 2 one_pos one_pos two_pos hpow ⟨1, 0, 0⟩ hk
  rw [C05_double_scaling _ _ one_pos one_pos two_pos one_pos hpow hk] at h1
  have e : vecNorm [1, 0, 0] = 1 := by rw [vecNorm3]; norm_num
  simp only [eddyLifetime, e, fin_mul_fin] at h1
  rw [hpow _ (by norm_num), fin_mul_fin, fin_mul_fin, fin_inj] at h1
  norm_num at h1

/-- **C05** For the true (or any positive) hypergeometric function: scaling `Gamma` at construction by `c` multiplies the
MANN_APPROX lifetime by `c^2` (once through `TimeScale`, once through the regression). -/
theorem C05_gamma_squared (hyp : ℝ → ℝ) (hh : ∀ x < 0, 0 < hyp x) {L0 T0 c : ℝ} (hL0 : 0 < L0) (hT0 : 0 < T0)
    (hc : 0 < c) {k : K3} (hk : k.vec ≠ 0) :
    mannApproxLifetime hyp L0 (c * T0) L0 (c * T0) k = fin (c ^ 2) * mannApproxLifetime hyp L0 T0 L0 T0 k := by
  have hkk : 0 < kkR k := by
    refine lt_of_le_of_ne (kkR_nonneg k) fun h => hk ?_
    obtain ⟨h1, h2, h3⟩ := kkR_eq_zero h.symm
    funext i; fin_cases i <;> simp [K3.vec, h1, h2, h3]
  have hx : 0 < L0 * Real.sqrt (kkR k) := mul_pos hL0 (Real.sqrt_pos.2 hkk)
  have hreg : initMannApproximation hyp L0 (c * T0) =
      ((initMannApproximation hyp L0 T0).1, Real.log c + (initMannApproximation hyp L0 T0).2) := by
    unfold initMannApproximation
    have e : (mannApproxNodes.map fun k => (Fl.log (fin (c * T0) * MannEddyLifetime hyp (fin L0 * fin k))).toReal) =
        (mannApproxNodes.map fun k => (Fl.log (fin T0 * MannEddyLifetime hyp (fin L0 * fin k))).toReal).map
          fun y => Real.log c + y := by
      rw [List.map_map]
      apply List.map_congr_left
      intro x hx
      have hx := nodes_pos hx
      have hLx := mul_pos hL0 hx
      have hneg : -((L0 * x) ^ (-2 : ℝ)) < 0 := by
        have := Real.rpow_pos_of_pos hLx (-2 : ℝ); linarith
      have hp := hh _ hneg
      have hm : 0 < (L0 * x) ^ (-2 / 3 : ℝ) / Real.sqrt (hyp (-((L0 * x) ^ (-2 : ℝ)))) :=
        div_pos (Real.rpow_pos_of_pos hLx _) (Real.sqrt_pos.2 hp)
      simp only [Function.comp, fin_mul_fin, mann_pos hLx hp]
      rw [log_fin (by positivity), log_fin (by positivity), toReal_fin, toReal_fin, mul_assoc c,
        Real.log_mul hc.ne' (by positivity)]
    simp only [e]
    exact linReg_shift _ _ _ (by simpa using nodes_ne_nil)
  unfold mannApproxLifetime
  rw [hreg]
  simp only [eddyLifetime, Mann_linear_exponential_approx, vecNorm_kkR, fin_mul_fin, log_fin hx,
    fin_add_fin, exp_fin]
  rw [show ∀ a b d : ℝ, a + (b + d) = b + (a + d) by intros; ring, Real.exp_add (Real.log c), Real.exp_log hc]
  congr 1; ring

/-- **C06** TauNet depends only on the absolute values of the wavevector components: any sign flips leave it unchanged. -/
theorem C06_even (net : TauNet) (k k' : List ℝ) (h : List.Forall₂ (fun a b => |a| = |b|) k k') :
    net.forward k = net.forward k' := by
  apply forward_abs
  induction h with
  | nil => rfl
  | cons h _ ih => simp [h, ih]

/-- **C06** TauNet is never NaN and never negative; it is a positive finite number when the augmented wavevector is
non-zero. -/
theorem C06_nonneg (net : TauNet) (k : List ℝ) :
    (∃ r, 0 ≤ r ∧ net.forward k = fin r) ∨ net.forward k = pinf := by
  by_cases h : vecNorm (net.mlpForward (k.map fun t => |t|)) = 0
  · unfold TauNet.forward
    rw [h]
    unfold rational
    simp only [abs_fin, abs_zero, one_def, fin_mul_fin, fin_add_fin, mul_zero, add_zero, pow_fin _ one_pos,
      Real.one_rpow]
    rcases lt_trichotomy (net.nu - 2 / 3) 0 with ha | ha | ha
    · right; rw [pow_fin_zero_neg ha, pinf_div_fin_pos zero_le_one]
    · left; rw [ha, pow_fin_zero_zero, fin_div_fin _ one_ne_zero]; exact ⟨_, by norm_num, rfl⟩
    · left; rw [pow_fin_zero_pos ha, fin_div_fin _ one_ne_zero]; exact ⟨_, by norm_num, rfl⟩
  · obtain ⟨r, hr, e⟩ := forward_fin net h
    exact Or.inl ⟨r, hr.le, e⟩

/-- **C06** Strict positivity, and the documented closed form `|a|^(nu-2/3) / (1+|a|^2)^(nu/2)`. -/
theorem C06_positive (net : TauNet) (k : List ℝ) (h : ∃ x ∈ net.mlpForward (k.map fun t => |t|), x ≠ 0) :
    let a := vecNorm (net.mlpForward (k.map fun t => |t|))
    0 < a ∧ net.forward k = fin (a ^ (net.nu - 2 / 3) / (1 + a ^ 2) ^ (net.nu / 2)) ∧
      0 < a ^ (net.nu - 2 / 3) / (1 + a ^ 2) ^ (net.nu / 2) := by
  obtain ⟨x, hx, hne⟩ := h
  have hp : 0 < vecNorm (net.mlpForward (k.map fun t => |t|)) := by
    refine Real.sqrt_pos.2 (lt_of_lt_of_le (mul_self_pos.2 hne) ?_)
    exact List.single_le_sum (by intro y hy; obtain ⟨z, -, rfl⟩ := List.mem_map.1 hy; exact mul_self_nonneg _)
      _ (List.mem_map.2 ⟨x, hx, rfl⟩)
  refine ⟨hp, ?_, ?_⟩
  · unfold TauNet.forward
    rw [rational_pos _ hp, sq]
  · have h1 : 0 < 1 + vecNorm (net.mlpForward (k.map fun t => |t|)) ^ 2 := by positivity
    exact div_pos (Real.rpow_pos_of_pos hp _) (Real.rpow_pos_of_pos h1 _)

example : List.Forall₂ (fun a b : ℝ => |a| = |b|) [1, -2, 3] [-1, -2, -3] := by simp

/-- **C07** Inertial range: `x^(2/3) * Rational_nu(x) → 1` as `x → ∞`, for every `nu`. -/
theorem C07_inertial (nu : ℝ) :
    Tendsto (fun x : ℝ => x ^ (2 / 3 : ℝ) * (rational nu (fin x)).toReal) atTop (𝓝 1) := by
  have h : Tendsto (fun x : ℝ => ((1 + (x⁻¹) ^ 2) ^ (nu / 2))⁻¹) atTop (𝓝 1) := by
    have hc : ContinuousAt (fun y : ℝ => ((1 + y ^ 2) ^ (nu / 2))⁻¹) 0 := by
      refine ContinuousAt.inv₀ (ContinuousAt.rpow_const (by fun_prop) (Or.inl (by norm_num))) ?_
      simp
    have := hc.tendsto.comp tendsto_inv_atTop_zero
    simpa [Function.comp_def] using this
  refine h.congr' ?_
  filter_upwards [eventually_gt_atTop (0:ℝ)] with x hx
  rw [rational_pos nu hx, toReal_fin, ← mul_div_assoc, ← Real.rpow_add hx]
  have h1 : 0 < 1 + x⁻¹ ^ 2 := by positivity
  have e : 1 + x * x = x ^ (2:ℝ) * (1 + x⁻¹ ^ 2) := by
    rw [Real.rpow_two]; field_simp; ring
  rw [e, Real.mul_rpow (by positivity) h1.le, ← Real.rpow_mul hx.le,
    show (2 / 3 + (nu - 2 / 3) : ℝ) = nu by ring, show (2 * (nu / 2) : ℝ) = nu by ring]
  have := (Real.rpow_pos_of_pos hx nu).ne'
  have := (Real.rpow_pos_of_pos h1 (nu / 2)).ne'
  field_simp

/-- **C07** Large eddies: `x^(2/3-nu) * Rational_nu(x) → 1` as `x → 0+`. -/
theorem C07_large_eddies (nu : ℝ) :
    Tendsto (fun x : ℝ => x ^ (2 / 3 - nu : ℝ) * (rational nu (fin x)).toReal) (𝓝[>] 0) (𝓝 1) := by
  have h : Tendsto (fun x : ℝ => ((1 + x * x) ^ (nu / 2))⁻¹) (𝓝[>] 0) (𝓝 1) := by
    have hc : ContinuousAt (fun x : ℝ => ((1 + x * x) ^ (nu / 2))⁻¹) 0 := by
      refine ContinuousAt.inv₀ (ContinuousAt.rpow_const (by fun_prop) (Or.inl (by norm_num))) ?_
      simp
    have := hc.tendsto
    simp at this
    exact this.mono_left nhdsWithin_le_nhds
  refine h.congr' ?_
  filter_upwards [self_mem_nhdsWithin] with x hx
  have hx : 0 < x := hx
  rw [rational_pos nu hx, toReal_fin, ← mul_div_assoc, ← Real.rpow_add hx,
    show (2 / 3 - nu + (nu - 2 / 3) : ℝ) = 0 by ring, Real.rpow_zero, one_div]

/-- **C09** With ReLU activations (and no biases, as in the code) the augmented wavevector is positively homogeneous. -/
theorem C09_homogeneous (net : TauNet) (hact : ∀ f ∈ net.activations, f = reluVec) {t : ℝ} (ht : 0 ≤ t)
    (x : List ℝ) :
    net.mlpForward (x.map fun a => t * a) = (net.mlpForward x).map fun a => t * a := by
  have hlin : ∀ (W : List (List ℝ)) (x : List ℝ), linear W (x.map fun a => t * a) = (linear W x).map fun a => t * a := by
    intro W x
    unfold linear
    rw [List.map_map]
    apply List.map_congr_left
    intro row _
    simp only [Function.comp]
    clear * -
    induction row generalizing x with
    | nil => simp
    | cons r row ih =>
      cases x with
      | nil => simp
      | cons a x => simp [ih]; ring
  have hrelu : ∀ x : List ℝ, reluVec (x.map fun a => t * a) = (reluVec x).map fun a => t * a := by
    intro x
    unfold reluVec
    rw [List.map_map, List.map_map]
    apply List.map_congr_left
    intro a _
    simp only [Function.comp]
    rw [mul_max_of_nonneg _ _ ht, mul_zero]
  have hfold : ∀ (l : List (List (List ℝ) × (List ℝ → List ℝ))), (∀ p ∈ l, p.2 = reluVec) → ∀ x : List ℝ,
      l.foldl (fun out la => la.2 (linear la.1 out)) (x.map fun a => t * a) =
      (l.foldl (fun out la => la.2 (linear la.1 out)) x).map fun a => t * a := by
    intro l
    induction l with
    | nil => intro _ x; rfl
    | cons p l ih =>
      intro hp x
      simp only [List.foldl_cons]
      rw [hp p (by simp), hlin, hrelu]
      exact ih (fun q hq => hp q (by simp [hq])) _
  have hzip : ∀ x y : List ℝ, List.zipWith (· + ·) (x.map fun a => t * a) (y.map fun a => t * a) =
      (List.zipWith (· + ·) x y).map fun a => t * a := by
    intro x
    induction x with
    | nil => simp
    | cons a x ih =>
      intro y
      cases y with
      | nil => simp
      | cons b y => simp [ih]; ring
  unfold TauNet.mlpForward
  simp only
  rw [hfold _ (fun p hp => hact _ (List.of_mem_zip hp).2), hlin, hzip]

/-- **C09** Along a ray, TauNet is the rational kernel of a fixed multiple of the distance. -/
theorem C09_rays (net : TauNet) (hact : ∀ f ∈ net.activations, f = reluVec) {t : ℝ} (ht : 0 ≤ t) (k : List ℝ) :
    net.forward (k.map fun a => t * a) =
      rational net.nu (fin (t * vecNorm (net.mlpForward (k.map fun a => |a|)))) := by
  unfold TauNet.forward
  have e : (k.map fun a => t * a).map (fun a => |a|) = (k.map fun a => |a|).map fun a => t * a := by
    rw [List.map_map, List.map_map]
    apply List.map_congr_left
    intro a _
    simp [abs_mul, abs_of_nonneg ht]
  rw [e]
  simp only
  rw [C09_homogeneous net hact ht]
  congr 2
  unfold vecNorm
  rw [List.map_map]
  have : ∀ l : List ℝ, (l.map ((fun a => a * a) ∘ fun a => t * a)).sum = t ^ 2 * (l.map fun a => a * a).sum := by
    intro l
    induction l with
    | nil => simp
    | cons a l ih => simp [ih]; ring
  rw [this, Real.sqrt_mul (sq_nonneg t), Real.sqrt_sq ht]

example : ∀ f ∈ (idNet (-1 / 3)).activations, f = reluVec := by simp [idNet]

/-- **C07** The slopes of the network itself: along a ray on which the augmented wavevector does not vanish, the eddy
lifetime decays like `t^(-2/3)` whatever `nu`, and near the origin it follows `t^(nu - 2/3)` with the network's own `nu`. -/
theorem C07_network (net : TauNet) (hact : ∀ f ∈ net.activations, f = reluVec) (k : List ℝ)
    (h : ∃ x ∈ net.mlpForward (k.map fun t => |t|), x ≠ 0) :
    ∃ a : ℝ, 0 < a ∧
      Tendsto (fun t : ℝ => t ^ (2 / 3 : ℝ) * (net.forward (k.map fun x => t * x)).toReal) atTop (𝓝 (a ^ (-(2 / 3) : ℝ))) ∧
      Tendsto (fun t : ℝ => t ^ (2 / 3 - net.nu : ℝ) * (net.forward (k.map fun x => t * x)).toReal) (𝓝[>] 0)
        (𝓝 (a ^ (net.nu - 2 / 3))) := by
  set a := vecNorm (net.mlpForward (k.map fun t => |t|)) with ha
  have hp : 0 < a := (C06_positive net k h).1
  refine ⟨a, hp, ?_, ?_⟩
  · have h1 : Tendsto (fun t : ℝ => t * a) atTop atTop := tendsto_id.atTop_mul_const hp
    have h2 := ((C07_inertial net.nu).comp h1).const_mul (a ^ (-(2 / 3) : ℝ))
    rw [mul_one] at h2
    refine h2.congr' ?_
    filter_upwards [eventually_gt_atTop 0] with t ht
    rw [C09_rays net hact ht.le, ← ha]
    simp only [Function.comp_apply]
    rw [Real.mul_rpow ht.le hp.le, ← mul_assoc, mul_comm (t ^ (2 / 3 : ℝ)), ← mul_assoc, ← Real.rpow_add hp]
    norm_num
  · have h1 : Tendsto (fun t : ℝ => t * a) (𝓝[>] 0) (𝓝[>] 0) := by
      refine tendsto_nhdsWithin_iff.2 ⟨?_, ?_⟩
      · have : Tendsto (fun t : ℝ => t * a) (𝓝 0) (𝓝 (0 * a)) := (continuous_mul_const a).tendsto 0
        rw [zero_mul] at this
        exact this.mono_left nhdsWithin_le_nhds
      · filter_upwards [self_mem_nhdsWithin] with t ht
        exact mul_pos ht hp
    have h2 := ((C07_large_eddies net.nu).comp h1).const_mul (a ^ (net.nu - 2 / 3))
    rw [mul_one] at h2
    refine h2.congr' ?_
    filter_upwards [self_mem_nhdsWithin] with t ht
    have ht' : 0 < t := ht
    rw [C09_rays net hact ht'.le, ← ha]
    simp only [Function.comp_apply]
    rw [Real.mul_rpow ht'.le hp.le, ← mul_assoc, mul_comm (t ^ (2 / 3 - net.nu)), ← mul_assoc, ← Real.rpow_add hp]
    norm_num

/-- The identity network with a non-zero wavevector meets the hypotheses. -/
example : ∃ x ∈ (idNet (-1 / 3)).mlpForward ([1, -2, 3].map fun t : ℝ => |t|), x ≠ 0 := by
  refine ⟨1, ?_, one_ne_zero⟩
  simp [idNet, TauNet.mlpForward, linear, reluVec]

/-- **C16** Part that holds: when the trained (non-dimensional) length scale is 1 the generator's DRD eddy lifetime equals
the trained one at the non-dimensional wavevector. -/
theorem C16_unit_length_partial (hyp : ℝ → ℝ) (net : TauNet) (T h : ℝ) {k : K3} (hk : k.vec ≠ 0) :
    nnBeta net T h k = eddyLifetime hyp (.taunet net) 1 T (k.smul h) := by
  have hkk : k.k1 ^ 2 + k.k2 ^ 2 + k.k3 ^ 2 ≠ 0 := by
    rw [kkR_pow]
    intro h0
    obtain ⟨h1, h2, h3⟩ := kkR_eq_zero h0
    exact hk (by funext i; fin_cases i <;> simp [K3.vec, h1, h2, h3])
  unfold nnBeta eddyLifetime
  rw [if_neg hkk]
  simp only [K3.smul, mul_one, mul_comm h]
  rw [← zero_def, zero_add]

/-- **C16** In general the generator evaluates the trained lifetime with the length scale left out. -/
theorem C16_missing_length_scale (hyp : ℝ → ℝ) (net : TauNet) {L : ℝ} (hL : L ≠ 0) (T h : ℝ) {k : K3} (hk : k.vec ≠ 0) :
    nnBeta net T h k = eddyLifetime hyp (.taunet net) L T (k.smul (h / L)) := by
  have hkk : k.k1 ^ 2 + k.k2 ^ 2 + k.k3 ^ 2 ≠ 0 := by
    rw [kkR_pow]
    intro h0
    obtain ⟨h1, h2, h3⟩ := kkR_eq_zero h0
    exact hk (by funext i; fin_cases i <;> simp [K3.vec, h1, h2, h3])
  unfold nnBeta eddyLifetime
  rw [if_neg hkk]
  have e : ∀ a : ℝ, h / L * a * L = a * h := by intro a; field_simp
  simp only [K3.smul, e]
  rw [← zero_def, zero_add]

/-- **C16** (disagreement) The trained lifetime at the non-dimensional wavevector is not what the generator uses: witness
with a trained length scale 2 and the default `nu`. -/
theorem C16_disproof : ¬ ∀ (hyp : ℝ → ℝ) (net : TauNet) (L T h : ℝ), 0 < L → 0 < T → 0 < h → ∀ k : K3, k.vec ≠ 0 →
    nnBeta net T h k = eddyLifetime hyp (.taunet net) L T (k.smul h) := by
  intro hall
  have hk : (K3.mk 1 0 0).vec ≠ 0 := fun h => by have := congrFun h 0; simp [K3.vec] at this
  have h1 := hall (fun _ => 1) (idNet (-1 / 3)) 2 1 1 two_pos one_pos one_pos ⟨1, 0, 0⟩ hk
  rw [C16_unit_length_partial (fun _ => 1) _ _ _ hk] at h1
  simp only [eddyLifetime, TauNet.forward, K3.smul, one_mul_fl, List.map_cons, List.map_nil, idNet_mlp, vecNorm3] at h1
  have e4 : Real.sqrt 4 = 2 := by rw [show (4:ℝ) = 2 ^ 2 by norm_num, Real.sqrt_sq (by norm_num)]
  norm_num at h1
  rw [e4, show (idNet (-(1 / 3))).nu = -(1 / 3) from rfl, rational_pos _ one_pos, rational_pos _ two_pos, fin_add_fin,
    fin_add_fin, fin_inj] at h1
  norm_num at h1
  have h2 : (1 / 2 : ℝ) / 5 ^ (-(1 / 6) : ℝ) = 5 ^ (1 / 6 : ℝ) / 2 := by
    rw [Real.rpow_neg (by norm_num)]
    field_simp
  have h3 : ((2:ℝ) ^ (-(1 / 6) : ℝ))⁻¹ = 2 ^ (1 / 6 : ℝ) := by
    rw [Real.rpow_neg (by norm_num), inv_inv]
  have h4 : (5:ℝ) ^ (1 / 6 : ℝ) / 2 < 2 ^ (1 / 6 : ℝ) := by
    have : (5:ℝ) ^ (1 / 6 : ℝ) = 2 ^ (1 / 6 : ℝ) * (5 / 2) ^ (1 / 6 : ℝ) := by
      rw [← Real.mul_rpow (by norm_num) (by norm_num)]; norm_num
    have h5 : ((5 / 2 : ℝ)) ^ (1 / 6 : ℝ) < 2 := by
      calc ((5 / 2 : ℝ)) ^ (1 / 6 : ℝ) < (2 ^ (6 : ℝ)) ^ (1 / 6 : ℝ) := by
            apply Real.rpow_lt_rpow (by norm_num) (by norm_num) (by norm_num)
        _ = 2 := by rw [← Real.rpow_mul (by norm_num)]; norm_num
    have h6 : 0 < (2:ℝ) ^ (1 / 6 : ℝ) := by positivity
    rw [this]; nlinarith
  rw [h3, h2] at h1
  linarith

end
end Verif
