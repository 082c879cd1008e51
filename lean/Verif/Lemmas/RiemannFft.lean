import Verif.Lemmas.TrapzConv
import Verif.Model.Sampling

/-! Averages over the wavenumbers of a discrete Fourier transform converge to averages over the resolved band. -/

namespace Verif
open MeasureTheory

noncomputable section

/-- Average of `g` over the wavenumbers of a transform with `n` points at spacing `h`. -/
def fftAvg (n : ℕ) [NeZero n] (h : ℝ) (g : ℝ → ℝ) : ℝ := (∑ j : ZMod n, g (2 * Real.pi / (h * n) * fftIdx n j)) / n

/-- Average of `g` over the resolved band `[-pi/h, pi/h]`. -/
def bandAvg (h : ℝ) (g : ℝ → ℝ) : ℝ := h / (2 * Real.pi) * ∫ κ in (-(Real.pi / h))..(Real.pi / h), g κ

/-- For an odd number of points the integer frequencies are `-m, ..., m`. -/
theorem sum_fftIdx_odd {n m : ℕ} [NeZero n] (hn : n = 2 * m + 1) (F : ℤ → ℝ) :
    ∑ j : ZMod n, F (fftIdx n j) = ∑ t ∈ Finset.range n, F ((t : ℤ) - m) := by
  have hr : ∀ j : ZMod n, -(m : ℤ) ≤ fftIdx n j ∧ fftIdx n j ≤ m := by
    intro j
    have := ZMod.val_lt j
    unfold fftIdx
    split_ifs <;> omega
  have hc : ∀ j : ZMod n, ((fftIdx n j : ℤ) : ZMod n) = j := by
    intro j
    unfold fftIdx
    split_ifs <;> simp
  refine Finset.sum_bij (fun j _ => (fftIdx n j + m).toNat) ?_ ?_ ?_ ?_
  · intro j _
    have := hr j
    rw [Finset.mem_range]; omega
  · intro i _ j _ hij
    have h1 := hr i
    have h2 := hr j
    have h3 : fftIdx n i = fftIdx n j := by omega
    rw [← hc i, ← hc j, h3]
  · intro t ht
    rw [Finset.mem_range] at ht
    refine ⟨(((t : ℤ) - m : ℤ) : ZMod n), Finset.mem_univ _, ?_⟩
    have h1 := hr (((t : ℤ) - m : ℤ) : ZMod n)
    have h2 := hc (((t : ℤ) - m : ℤ) : ZMod n)
    rw [ZMod.intCast_eq_intCast_iff_dvd_sub] at h2
    obtain ⟨c, h2⟩ := h2
    have h3 : c = 0 := by
      by_contra h
      rcases lt_or_gt_of_ne h with h | h
      · have : (n : ℤ) * c ≤ -n := by nlinarith
        omega
      · have : (n : ℤ) ≤ n * c := by nlinarith
        omega
    rw [h3, mul_zero] at h2
    omega
  · intro j _
    have := hr j
    congr 1
    omega

theorem fftAvg_err {g : ℝ → ℝ} (hg : Continuous g) {n : ℕ} [NeZero n] (ho : Odd n) {h d e : ℝ} (hh : 0 < h)
    (hd : 2 * Real.pi / (h * n) ≤ d) (hm : Modulus g (-(Real.pi / h)) (Real.pi / h) d e) :
    |fftAvg n h g - bandAvg h g| ≤ e := by
  obtain ⟨m, hn⟩ := ho
  have hn0 : (0 : ℝ) < n := by exact_mod_cast NeZero.pos n
  have hnm : (n : ℝ) = 2 * m + 1 := by rw [hn]; push_cast; ring
  have hpi := Real.pi_pos
  set D := 2 * Real.pi / (h * n) with hD
  have hD0 : 0 < D := by positivity
  have ha : Real.pi / h = D * n / 2 := by rw [hD]; field_simp
  set x : ℕ → ℝ := fun t => -(Real.pi / h) + D * t with hx
  have hx0 : x 0 = -(Real.pi / h) := by simp [hx]
  have hxn : x n = Real.pi / h := by simp only [hx]; rw [ha]; ring
  have hmono : ∀ t, x t ≤ x (t + 1) := by intro t; simp only [hx]; push_cast; nlinarith
  have hlow : ∀ t, -(Real.pi / h) ≤ x t := by
    intro t
    have : 0 ≤ D * (t : ℝ) := by positivity
    simp only [hx]; linarith
  have hup : ∀ t, t ≤ n → x t ≤ Real.pi / h := by
    intro t ht
    have : (t : ℝ) ≤ n := by exact_mod_cast ht
    simp only [hx]; rw [ha]; nlinarith
  have hsplit : ∫ κ in (-(Real.pi / h))..(Real.pi / h), g κ = ∑ t ∈ Finset.range n, ∫ κ in x t..x (t + 1), g κ := by
    rw [intervalIntegral.sum_integral_adjacent_intervals fun k _ => hg.intervalIntegrable _ _, hx0, hxn]
  have hcell : ∀ t ∈ Finset.range n, |D * g (D * (((t : ℤ) - m : ℤ) : ℝ)) - ∫ κ in x t..x (t + 1), g κ| ≤ e * D := by
    intro t ht
    rw [Finset.mem_range] at ht
    have hmid : D * (((t : ℤ) - m : ℤ) : ℝ) = x t + D / 2 := by
      simp only [hx]; rw [ha, hnm]; push_cast; ring
    have hw : x (t + 1) - x t = D := by simp only [hx]; push_cast; ring
    have e1 : D * g (D * (((t : ℤ) - m : ℤ) : ℝ)) = ∫ κ in x t..x (t + 1), g (D * (((t : ℤ) - m : ℤ) : ℝ)) := by
      rw [intervalIntegral.integral_const, smul_eq_mul, hw]
    rw [e1, ← intervalIntegral.integral_sub (by simp) (hg.intervalIntegrable _ _)]
    have := intervalIntegral.norm_integral_le_of_norm_le_const (a := x t) (b := x (t + 1)) (C := e)
      (f := fun κ => g (D * (((t : ℤ) - m : ℤ) : ℝ)) - g κ) ?_
    · rwa [hw, abs_of_pos hD0, Real.norm_eq_abs] at this
    · intro κ hκ
      rw [Set.uIoc_of_le (hmono t)] at hκ
      rw [Real.norm_eq_abs, hmid]
      have l1 := hlow t
      have l2 := hup (t + 1) ht
      refine hm _ ⟨by linarith, by linarith⟩ _ ⟨by linarith [hκ.1], by linarith [hκ.2]⟩ ?_
      rw [abs_le]; constructor <;> linarith [hκ.1, hκ.2]
  have hsum : |∑ t ∈ Finset.range n, (D * g (D * (((t : ℤ) - m : ℤ) : ℝ)) - ∫ κ in x t..x (t + 1), g κ)| ≤ n * (e * D) := by
    refine (Finset.abs_sum_le_sum_abs _ _).trans ?_
    have := Finset.sum_le_sum hcell
    simpa using this
  have hfin : fftAvg n h g - bandAvg h g =
      (∑ t ∈ Finset.range n, (D * g (D * (((t : ℤ) - m : ℤ) : ℝ)) - ∫ κ in x t..x (t + 1), g κ)) / (n * D) := by
    rw [Finset.sum_sub_distrib, ← hsplit, ← Finset.mul_sum]
    unfold fftAvg bandAvg
    rw [sum_fftIdx_odd hn fun i => g (2 * Real.pi / (h * n) * i), ← hD]
    have hb : h / (2 * Real.pi) = 1 / (n * D) := by rw [hD]; field_simp
    rw [hb]
    field_simp
  rw [hfin, abs_div, abs_of_pos (by positivity : 0 < (n : ℝ) * D), div_le_iff₀ (by positivity)]
  linarith

theorem fftAvg_le {n : ℕ} [NeZero n] {h e : ℝ} {g g' : ℝ → ℝ}
    (H : ∀ j : ZMod n, |g (2 * Real.pi / (h * n) * fftIdx n j) - g' (2 * Real.pi / (h * n) * fftIdx n j)| ≤ e) :
    |fftAvg n h g - fftAvg n h g'| ≤ e := by
  have hn0 : (0 : ℝ) < n := by exact_mod_cast NeZero.pos n
  unfold fftAvg
  rw [← sub_div, ← Finset.sum_sub_distrib, abs_div, abs_of_pos hn0, div_le_iff₀ hn0]
  refine (Finset.abs_sum_le_sum_abs _ _).trans ?_
  refine (Finset.sum_le_sum fun j _ => H j).trans ?_
  simp [ZMod.card]; linarith

theorem bandAvg_sub_le {h e : ℝ} (hh : 0 < h) {g g' : ℝ → ℝ} (hg : Continuous g) (hg' : Continuous g')
    (H : ∀ κ ∈ Set.Icc (-(Real.pi / h)) (Real.pi / h), |g κ - g' κ| ≤ e) : |bandAvg h g - bandAvg h g'| ≤ e := by
  have hpi := Real.pi_pos
  have ha : 0 < Real.pi / h := by positivity
  unfold bandAvg
  rw [← mul_sub, ← intervalIntegral.integral_sub (hg.intervalIntegrable _ _) (hg'.intervalIntegrable _ _), abs_mul,
    abs_of_pos (by positivity)]
  have := intervalIntegral.norm_integral_le_of_norm_le_const (a := -(Real.pi / h)) (b := Real.pi / h) (C := e)
    (f := fun t => g t - g' t) ?_
  · rw [Real.norm_eq_abs, abs_of_pos (by linarith : 0 < Real.pi / h - -(Real.pi / h))] at this
    calc h / (2 * Real.pi) * _ ≤ h / (2 * Real.pi) * (e * (Real.pi / h - -(Real.pi / h))) :=
          mul_le_mul_of_nonneg_left this (by positivity)
      _ = e := by field_simp; ring
  · intro t ht
    rw [Set.uIoc_of_le (by linarith)] at ht
    exact H t ⟨ht.1.le, ht.2⟩

/-- Double averages over the wavenumbers of two axes converge to the average over the resolved rectangle. -/
theorem fftAvg2_tendsto {f : ℝ → ℝ → ℝ} (hf : Continuous fun q : ℝ × ℝ => f q.1 q.2) {h2 h3 e : ℝ} (p2 : 0 < h2)
    (p3 : 0 < h3) (he : 0 < e) : ∃ N : ℕ, ∀ (n2 n3 : ℕ) [NeZero n2] [NeZero n3], Odd n2 → Odd n3 → N ≤ n2 → N ≤ n3 →
      |fftAvg n2 h2 (fun x => fftAvg n3 h3 (f x)) - bandAvg h2 fun x => bandAvg h3 (f x)| ≤ e := by
  have hpi := Real.pi_pos
  set a := max (Real.pi / h2) (Real.pi / h3) with ha
  obtain ⟨d, hd, hm⟩ := square_modulus hf a (half_pos he)
  have s2 : Set.Icc (-(Real.pi / h2)) (Real.pi / h2) ⊆ Set.Icc (-a) a :=
    Set.Icc_subset_Icc (by linarith [le_max_left (Real.pi / h2) (Real.pi / h3)]) (le_max_left _ _)
  have s3 : Set.Icc (-(Real.pi / h3)) (Real.pi / h3) ⊆ Set.Icc (-a) a :=
    Set.Icc_subset_Icc (by linarith [le_max_right (Real.pi / h2) (Real.pi / h3)]) (le_max_right _ _)
  have hcol : ∀ x, Continuous (f x) := fun x => hf.comp (Continuous.prodMk_right x)
  have hG : Continuous fun x => bandAvg h3 (f x) := by
    unfold bandAvg
    exact continuous_const.mul
      (intervalIntegral.continuous_parametric_intervalIntegral_of_continuous' (f := f) hf _ _)
  obtain ⟨N, hN⟩ := exists_nat_gt (max (2 * Real.pi / (h2 * d)) (2 * Real.pi / (h3 * d)))
  have fine : ∀ {h : ℝ} {n : ℕ}, 0 < h → 2 * Real.pi / (h * d) < N → N ≤ n → 2 * Real.pi / (h * n) ≤ d := by
    intro h n hh h1 h2
    have hn : (N : ℝ) ≤ n := by exact_mod_cast h2
    have h0 : 0 < 2 * Real.pi / (h * d) := by positivity
    have hn0 : (0 : ℝ) < n := by linarith
    rw [div_lt_iff₀ (by positivity)] at h1
    rw [div_le_iff₀ (by positivity)]
    have : (N : ℝ) * (h * d) ≤ n * (h * d) := mul_le_mul_of_nonneg_right hn (by positivity)
    linarith
  refine ⟨N, fun n2 n3 _ _ o2 o3 l2 l3 => ?_⟩
  have b2 : ∀ j : ZMod n2, 2 * Real.pi / (h2 * n2) * fftIdx n2 j ∈ Set.Icc (-(Real.pi / h2)) (Real.pi / h2) := by
    intro j
    have hn : (0 : ℝ) < n2 := by exact_mod_cast NeZero.pos n2
    have hv := ZMod.val_lt j
    have h1 : -(n2 : ℤ) ≤ 2 * fftIdx n2 j ∧ 2 * fftIdx n2 j ≤ n2 := by
      unfold fftIdx; split_ifs <;> omega
    have e1 : -(n2 : ℝ) ≤ 2 * fftIdx n2 j := by exact_mod_cast h1.1
    have e2 : 2 * (fftIdx n2 j : ℝ) ≤ n2 := by exact_mod_cast h1.2
    have e : 2 * Real.pi / (h2 * n2) * fftIdx n2 j = Real.pi / h2 * (2 * fftIdx n2 j / n2) := by field_simp
    have hp : 0 < Real.pi / h2 := by positivity
    rw [e]
    constructor
    · have : -1 ≤ 2 * (fftIdx n2 j : ℝ) / n2 := by rw [le_div_iff₀ hn]; linarith
      nlinarith
    · have : 2 * (fftIdx n2 j : ℝ) / n2 ≤ 1 := by rw [div_le_iff₀ hn]; linarith
      nlinarith
  have t1 : |fftAvg n2 h2 (fun x => fftAvg n3 h3 (f x)) - fftAvg n2 h2 fun x => bandAvg h3 (f x)| ≤ e / 2 := by
    refine fftAvg_le fun j => fftAvg_err (hcol _) o3 p3 (fine p3 (lt_of_le_of_lt (le_max_right _ _) hN) l3) ?_
    intro y hy z hz hyz
    exact hm (_, y) ⟨s2 (b2 j), s3 hy⟩ (_, z) ⟨s2 (b2 j), s3 hz⟩ (by simpa using hd.le) hyz
  have t2 : |fftAvg n2 h2 (fun x => bandAvg h3 (f x)) - bandAvg h2 fun x => bandAvg h3 (f x)| ≤ e / 2 := by
    refine fftAvg_err hG o2 p2 (fine p2 (lt_of_le_of_lt (le_max_left _ _) hN) l2) ?_
    intro x hx y hy hxy
    refine bandAvg_sub_le p3 (hcol x) (hcol y) fun t ht => ?_
    exact hm (x, t) ⟨s2 hx, s3 ht⟩ (y, t) ⟨s2 hy, s3 ht⟩ hxy (by simpa using hd.le)
  rw [abs_le] at t1 t2 ⊢
  constructor <;> linarith [t1.1, t1.2, t2.1, t2.2]

end
end Verif
