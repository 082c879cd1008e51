import Verif.Props.LowFreqSpectra

/-!
# Statistics of the simulated low-frequency field and of the spectrum estimate (C73, C82, C83)
-/

namespace Verif

noncomputable section
open Classical MeasureTheory

section
variable {n1 n2 : ℕ} [NeZero n1] [NeZero n2]

/-! ### C82 -/

/-- **C82** For unit white noise the simulated field is stationary: its covariances depend on the displacement only. -/
theorem C82_stationary {Ω : Type} [MeasurableSpace Ω] {μ : Measure Ω} (ξ : Box n1 n2 1 → Ω → ℝ)
    (hL2 : ∀ x, MemLp (ξ x) 2 μ) (hcov : ∀ x y, ∫ ω, ξ x ω * ξ y ω ∂μ = if x = y then 1 else 0)
    (lf : LowFreq) (i j : Fin 2) (x y s : Box n1 n2 1) :
    ∫ ω, lfFull lf (fun z => ξ z ω) i (x + s) * lfFull lf (fun z => ξ z ω) j (y + s) ∂μ =
      ∫ ω, lfFull lf (fun z => ξ z ω) i x * lfFull lf (fun z => ξ z ω) j y ∂μ := by
  rw [lf_cov ξ hL2 hcov, lf_cov ξ hL2 hcov, ← Equiv.sum_comp (Equiv.addRight s)]
  simp only [Equiv.coe_addRight, add_sub_add_right_eq_sub]

/-- The modes that contribute to component `i`: all but the Nyquist line of the wavenumber that multiplies it. -/
def lfKept (i : Fin 2) (k : Box n1 n2 1) : Prop :=
  match i with
  | 0 => 2 * k.2.1.val ≠ n2
  | 1 => 2 * k.1.val ≠ n1

theorem lfQr_normSq (lf : LowFreq) (hc : 0 ≤ lf.c) (hL : 0 < lf.cfg.L2d)
    (hcut : 1e-30 ≤ (1 / lf.cfg.L2d ^ 2) ^ (7 / 3 : ℝ)) (hd : 1e-16 ≤ lf.compDx * lf.compDy) {k : Box n1 n2 1}
    (hk : k ≠ 0 → 1e-20 ≤ lfFreq n1 lf.compDx k.1 ^ 2 + lfFreq n2 lf.compDy k.2.1 ^ 2 ∧
      1e-20 ≤ 2 * ((lfFreq n1 lf.compDx k.1 * Real.cos lf.cfg.psi) ^ 2 +
        (lfFreq n2 lf.compDy k.2.1 * Real.sin lf.cfg.psi) ^ 2)) (i : Fin 2) :
    lfQr lf i k * (starRingEnd ℂ) (lfQr lf i k) =
      (((2 * Real.pi) ^ 2 / (lf.compDx * lf.compDy) * if lfKept i k then
        lfIntegrand lf.c lf.cfg.L2d lf.cfg.psi lf.cfg.zi i (lfFreq n2 lf.compDy k.2.1) (lfFreq n1 lf.compDx k.1) else 0 : ℝ) : ℂ) := by
  have hsq : ∀ r : ℝ, Complex.I * (r : ℂ) * (starRingEnd ℂ) (Complex.I * (r : ℂ)) = ((r ^ 2 : ℝ) : ℂ) := by
    intro r
    rw [map_mul, Complex.conj_I, Complex.conj_ofReal]
    push_cast
    linear_combination (-(r : ℂ) ^ 2) * Complex.I_sq
  have key : (lfAmp lf k * lfFreq n2 lf.compDy k.2.1) ^ 2 = (2 * Real.pi) ^ 2 / (lf.compDx * lf.compDy) *
        lfIntegrand lf.c lf.cfg.L2d lf.cfg.psi lf.cfg.zi 0 (lfFreq n2 lf.compDy k.2.1) (lfFreq n1 lf.compDx k.1) ∧
      (lfAmp lf k * lfFreq n1 lf.compDx k.1) ^ 2 = (2 * Real.pi) ^ 2 / (lf.compDx * lf.compDy) *
        lfIntegrand lf.c lf.cfg.L2d lf.cfg.psi lf.cfg.zi 1 (lfFreq n2 lf.compDy k.2.1) (lfFreq n1 lf.compDx k.1) := by
    by_cases h0 : k = 0
    · subst h0
      have f0 : ∀ (n : ℕ) [NeZero n] (d : ℝ), lfFreq n d (0 : ZMod n) = 0 := by
        intro n _ d; simp [lfFreq, fftIdx, NeZero.pos n]
      have z : ∀ i, lfIntegrand lf.c lf.cfg.L2d lf.cfg.psi lf.cfg.zi i 0 0 = 0 := by
        intro i; unfold lfIntegrand; simp only; rw [if_pos (by norm_num)]
      simp only [show ((0 : Box n1 n2 1)).1 = 0 from rfl, show ((0 : Box n1 n2 1)).2.1 = 0 from rfl, f0, z]
      simp
    · exact C84_consistent hc hL hcut hd (hk h0).1 (hk h0).2
  have k0 : lfKept 0 k ↔ 2 * k.2.1.val ≠ n2 := Iff.rfl
  have k1 : lfKept 1 k ↔ 2 * k.1.val ≠ n1 := Iff.rfl
  revert i
  rw [Fin.forall_fin_two]
  constructor
  · rw [lfQr_zero_eq]
    by_cases hn : 2 * k.2.1.val = n2
    · rw [if_neg (fun h => k0.1 h hn)]; simp [hn]
    · rw [if_neg hn, if_pos (k0.2 hn), hsq, key.1]
  · rw [lfQr_one_eq]
    by_cases hn : 2 * k.1.val = n1
    · rw [if_neg (fun h => k1.1 h hn)]; simp [hn]
    · rw [if_neg hn, if_pos (k1.2 hn), hsq, neg_sq, key.2]

/-- **C82** For unit white noise the variance of each simulated component at every point is the Riemann sum of its
analytical spectral density over the computational wavenumber grid, with one Nyquist line missing. -/
theorem C82_variance {Ω : Type} [MeasurableSpace Ω] {μ : Measure Ω} (ξ : Box n1 n2 1 → Ω → ℝ)
    (hL2 : ∀ x, MemLp (ξ x) 2 μ) (hcov : ∀ x y, ∫ ω, ξ x ω * ξ y ω ∂μ = if x = y then 1 else 0)
    (lf : LowFreq) (hc : 0 ≤ lf.c) (hL : 0 < lf.cfg.L2d) (hcut : 1e-30 ≤ (1 / lf.cfg.L2d ^ 2) ^ (7 / 3 : ℝ))
    (hd : 1e-16 ≤ lf.compDx * lf.compDy)
    (hk : ∀ k : Box n1 n2 1, k ≠ 0 → 1e-20 ≤ lfFreq n1 lf.compDx k.1 ^ 2 + lfFreq n2 lf.compDy k.2.1 ^ 2 ∧
      1e-20 ≤ 2 * ((lfFreq n1 lf.compDx k.1 * Real.cos lf.cfg.psi) ^ 2 +
        (lfFreq n2 lf.compDy k.2.1 * Real.sin lf.cfg.psi) ^ 2)) (i : Fin 2) (x : Box n1 n2 1) :
    ∫ ω, lfFull lf (fun z => ξ z ω) i x ^ 2 ∂μ =
      (2 * Real.pi / (n1 * lf.compDx)) * (2 * Real.pi / (n2 * lf.compDy)) *
        ∑ k : Box n1 n2 1, if lfKept i k then
          lfIntegrand lf.c lf.cfg.L2d lf.cfg.psi lf.cfg.zi i (lfFreq n2 lf.compDy k.2.1) (lfFreq n1 lf.compDx k.1) else 0 := by
  have h : ∫ ω, lfFull lf (fun z => ξ z ω) i x ^ 2 ∂μ = ∑ z, lfImp lf i (x - z) * lfImp lf i (x - z) := by
    rw [← lf_cov ξ hL2 hcov]; simp only [sq]
  rw [h]
  have hcorr := lfImp_corr lf i i x x
  simp only [sub_self, wave_zero_right, mul_one, lfQr_normSq lf hc hL hcut hd (hk _)] at hcorr
  have : (∑ z, lfImp lf i (x - z) * lfImp lf i (x - z)) = 1 / (voxels n1 n2 1 : ℝ) *
      ∑ k : Box n1 n2 1, ((2 * Real.pi) ^ 2 / (lf.compDx * lf.compDy) * if lfKept i k then
        lfIntegrand lf.c lf.cfg.L2d lf.cfg.psi lf.cfg.zi i (lfFreq n2 lf.compDy k.2.1) (lfFreq n1 lf.compDx k.1) else 0) := by
    apply Complex.ofReal_injective
    push_cast at hcorr ⊢
    exact hcorr
  rw [this, ← Finset.mul_sum, ← mul_assoc]
  congr 1
  unfold voxels
  have q1 : (n1 : ℝ) ≠ 0 := by exact_mod_cast NeZero.ne n1
  have q2 : (n2 : ℝ) ≠ 0 := by exact_mod_cast NeZero.ne n2
  have hd0 : lf.compDx * lf.compDy ≠ 0 := (lt_of_lt_of_le (by norm_num) hd).ne'
  have d1 := left_ne_zero_of_mul hd0
  have d2 := right_ne_zero_of_mul hd0
  push_cast
  field_simp

/-! ### Wavenumbers of the estimate -/

theorem fftIdx_bounds {n : ℕ} [NeZero n] (j : ZMod n) : -(n : ℤ) ≤ 2 * fftIdx n j ∧ 2 * fftIdx n j < n := by
  have := ZMod.val_lt j
  unfold fftIdx
  split_ifs <;> omega

theorem lfFreq_eq {n : ℕ} [NeZero n] {d : ℝ} (hd : 0 < d) (j : ZMod n) :
    lfFreq n d j = 2 * Real.pi / (n * d) * fftIdx n j := by
  unfold lfFreq; ring

theorem step_pos (n : ℕ) [NeZero n] {d : ℝ} (hd : 0 < d) : 0 < 2 * Real.pi / (n * d) := by
  have q : (0 : ℝ) < n := by exact_mod_cast NeZero.pos n
  have := Real.pi_pos
  positivity

theorem mem_k1Pos {d kTol k : ℝ} : k ∈ k1Pos n1 d kTol ↔ kTol < k ∧ ∃ j : ZMod n1, |lfFreq n1 d j| = k := by
  unfold k1Pos
  rw [Finset.mem_sort, Finset.mem_filter, Finset.mem_image]
  simp only [Finset.mem_univ, true_and]
  exact and_comm

theorem k1Pos_pairwise (d kTol : ℝ) : (k1Pos n1 d kTol).Pairwise (· < ·) :=
  (Finset.sortedLT_sort _).pairwise

theorem getLast?_of_max {l : List ℝ} (hs : l.Pairwise (· < ·)) {m : ℝ} (hm : m ∈ l) (hmax : ∀ x ∈ l, x ≤ m) :
    l.getLast? = some m := by
  obtain ⟨a, b, rfl⟩ := List.append_of_mem hm
  cases b with
  | nil => simp
  | cons y t =>
    exfalso
    have h1 := (List.pairwise_append.1 hs).2.1
    have := (List.pairwise_cons.1 h1).1 y (by simp)
    exact absurd (hmax y (by simp)) (not_le.2 this)

/-! ### C73 -/

theorem computeSpectrum_eq {lf : LowFreq} {u1 u2 : Mat} (hu : lf.u = some (u1, u2)) (h1 : 0 < lf.userN1)
    (h2 : 0 < lf.userN2) (kTol : ℝ) :
    haveI : NeZero lf.userN1 := ⟨h1.ne'⟩
    haveI : NeZero lf.userN2 := ⟨h2.ne'⟩
    lf.computeSpectrum kTol = .ok
      (k1Pos lf.userN1 lf.userDx kTol,
       (k1Pos lf.userN1 lf.userDx kTol).map (spectrumAt
        (fun k : Box lf.userN1 lf.userN2 1 => ‖fftn (fun x => (u1.entry x.1.val x.2.1.val : ℂ)) k‖ ^ 2) lf.userDx
        (lf.userL1 / (((lf.userN1 : ℝ) * lf.userN2) ^ 2 * (2 * Real.pi))) kTol),
       (k1Pos lf.userN1 lf.userDx kTol).map (spectrumAt
        (fun k : Box lf.userN1 lf.userN2 1 => ‖fftn (fun x => (u2.entry x.1.val x.2.1.val : ℂ)) k‖ ^ 2) lf.userDx
        (lf.userL1 / (((lf.userN1 : ℝ) * lf.userN2) ^ 2 * (2 * Real.pi))) kTol)) := by
  unfold LowFreq.computeSpectrum
  rw [hu]
  simp only
  rw [dif_pos ⟨h1, h2⟩]
  rfl

/-- **C73** The estimate raises exactly when no field exists; otherwise it is non-negative on strictly increasing positive
wavenumbers. -/
theorem C73_estimate {cfg : LFConfig} (hp : cfg.Pos) {lf0 : LowFreq} (h : lfInit cfg = .ok lf0) (g : ℕ → ℝ) (pos : ℕ)
    {kTol : ℝ} (hk : 0 ≤ kTol) :
    lf0.computeSpectrum kTol = .error .runtimeError ∧
    ∃ ks F11 F22, (lf0.generate g pos).2.1.computeSpectrum kTol = .ok (ks, F11, F22) ∧
      F11.length = ks.length ∧ F22.length = ks.length ∧ ks.Pairwise (· < ·) ∧ (∀ k ∈ ks, 0 < k) ∧
      (∀ x ∈ F11, 0 ≤ x) ∧ (∀ x ∈ F22, 0 ≤ x) := by
  obtain ⟨c, hc⟩ := lfInit_computeC h
  obtain ⟨lf', h', -, -, hu, -, l1, -, N1, N2, -⟩ := lfInit_ok hp hc
  rw [h] at h'
  obtain rfl := Except.ok.inj h'
  refine ⟨?_, ?_⟩
  · unfold LowFreq.computeSpectrum; rw [hu]; rfl
  · obtain ⟨u1, u2, f1, f2, lf', hg, he, -⟩ := generate_spec hp h g pos
    rw [hg]
    simp only
    have q1 : 0 < lf'.userN1 := by rw [he]; simp only; rw [N1]; positivity
    have q2 : 0 < lf'.userN2 := by rw [he]; simp only; rw [N2]; positivity
    haveI : NeZero lf'.userN1 := ⟨q1.ne'⟩
    haveI : NeZero lf'.userN2 := ⟨q2.ne'⟩
    have hL : 0 ≤ lf'.userL1 := by rw [he]; simp only; rw [l1]; exact (mul_pos hp.2.1 hp.1).le
    refine ⟨_, _, _, computeSpectrum_eq (by rw [he]) q1 q2 kTol, by simp, by simp, k1Pos_pairwise _ _, ?_, ?_, ?_⟩
    · intro k hk'
      exact lt_of_le_of_lt hk (mem_k1Pos.1 hk').1
    all_goals
      intro x hx
      obtain ⟨k, _, rfl⟩ := List.mem_map.1 hx
      unfold spectrumAt
      have := Real.pi_pos
      refine mul_nonneg (Finset.sum_nonneg fun b _ => ?_) (by positivity)
      split_ifs
      · positivity
      · exact le_refl _

theorem nyquist_freq {n : ℕ} [NeZero n] {d : ℝ} (hd : 0 < d) (he : Even n) :
    ∃ j : ZMod n, |lfFreq n d j| = Real.pi / d := by
  obtain ⟨m, hm⟩ := he
  have hn := NeZero.pos n
  refine ⟨(m : ZMod n), ?_⟩
  have hv : ((m : ZMod n)).val = m := ZMod.val_natCast_of_lt (by omega)
  have hi : fftIdx n (m : ZMod n) = -(m : ℤ) := by unfold fftIdx; rw [hv, if_neg (by omega)]; omega
  rw [lfFreq_eq hd, hi]
  have hq : (n : ℝ) = 2 * m := by rw [hm]; push_cast; ring
  have hm0 : (0 : ℝ) < m := by exact_mod_cast (by omega : 0 < m)
  push_cast
  rw [mul_neg, abs_neg, abs_of_pos (by have := Real.pi_pos; positivity), hq]
  field_simp

/-- **C73** On a user grid with an even number of points along x and a tolerance below the wavenumber spacing, the last
returned wavenumber is the Nyquist wavenumber `pi/dx` and both estimates there are 0, whatever the field. -/
theorem C73_nyquist {lf : LowFreq} {u1 u2 : Mat} (hu : lf.u = some (u1, u2)) (h1 : 0 < lf.userN1) (h2 : 0 < lf.userN2)
    (he : Even lf.userN1) (hd : 0 < lf.userDx) {kTol : ℝ} (hk : kTol < 2 * Real.pi / (lf.userN1 * lf.userDx)) :
    ∃ ks F11 F22, lf.computeSpectrum kTol = .ok (ks, F11, F22) ∧
      ks.getLast? = some (Real.pi / lf.userDx) ∧ F11.getLast? = some 0 ∧ F22.getLast? = some 0 := by
  haveI : NeZero lf.userN1 := ⟨h1.ne'⟩
  haveI : NeZero lf.userN2 := ⟨h2.ne'⟩
  have hstep := step_pos lf.userN1 hd
  have hn : (2 : ℝ) ≤ lf.userN1 := by
    obtain ⟨m, hm⟩ := he
    exact_mod_cast (by omega : 2 ≤ lf.userN1)
  have hny : Real.pi / lf.userDx = 2 * Real.pi / (lf.userN1 * lf.userDx) * (lf.userN1 / 2) := by
    have : (lf.userN1 : ℝ) ≠ 0 := by linarith
    field_simp
  have hlast : (k1Pos lf.userN1 lf.userDx kTol).getLast? = some (Real.pi / lf.userDx) := by
    refine getLast?_of_max (k1Pos_pairwise _ _) ?_ ?_
    · rw [mem_k1Pos]
      refine ⟨?_, nyquist_freq hd he⟩
      rw [hny]; nlinarith
    · intro x hx
      obtain ⟨-, j, rfl⟩ := mem_k1Pos.1 hx
      obtain ⟨b1, b2⟩ := fftIdx_bounds j
      rw [lfFreq_eq hd, abs_mul, abs_of_pos hstep, hny]
      gcongr
      rw [abs_le]
      have c1 : -(lf.userN1 : ℝ) ≤ 2 * (fftIdx lf.userN1 j : ℝ) := by exact_mod_cast b1
      have c2 : 2 * (fftIdx lf.userN1 j : ℝ) ≤ lf.userN1 := by exact_mod_cast b2.le
      constructor <;> linarith
  have hzero : ∀ (power : Box lf.userN1 lf.userN2 1 → ℝ) (s : ℝ),
      spectrumAt power lf.userDx s kTol (Real.pi / lf.userDx) = 0 := by
    intro power s
    unfold spectrumAt
    rw [Finset.sum_eq_zero, zero_mul]
    intro b _
    rw [if_neg]
    rw [not_lt, lfFreq_eq hd, hny, abs_sub_comm]
    obtain ⟨-, b2⟩ := fftIdx_bounds b.1
    obtain ⟨m, hm⟩ := he
    have hle : (fftIdx lf.userN1 b.1 : ℝ) ≤ (lf.userN1 : ℝ) / 2 - 1 := by
      have h3 : fftIdx lf.userN1 b.1 + 1 ≤ m := by omega
      have h4 : (fftIdx lf.userN1 b.1 : ℝ) + 1 ≤ m := by exact_mod_cast h3
      have hq : (lf.userN1 : ℝ) = 2 * m := by rw [hm]; push_cast; ring
      rw [hq]; linarith
    rw [← mul_sub]
    refine le_trans ?_ (le_abs_self _)
    nlinarith
  refine ⟨_, _, _, computeSpectrum_eq hu h1 h2 kTol, hlast, ?_, ?_⟩
  · rw [List.getLast?_map, hlast, Option.map_some, hzero]
  · rw [List.getLast?_map, hlast, Option.map_some, hzero]

/-! ### C83 -/

/-- Parseval. -/
theorem parseval {n3 : ℕ} [NeZero n3] (f : Box n1 n2 n3 → ℝ) :
    ∑ k, ‖fftn (fun x => (f x : ℂ)) k‖ ^ 2 = (voxels n1 n2 n3 : ℝ) * ∑ x, f x ^ 2 := by
  have h : ∀ k, ((‖fftn (fun x => (f x : ℂ)) k‖ ^ 2 : ℝ) : ℂ) = ∑ x, ∑ y, (f x : ℂ) * f y * wave k (y - x) := by
    intro k
    rw [← Complex.normSq_eq_norm_sq, Complex.normSq_eq_conj_mul_self]
    unfold fftn
    rw [map_sum, mul_comm, Finset.sum_mul_sum]
    refine Finset.sum_congr rfl fun x _ => Finset.sum_congr rfl fun y _ => ?_
    rw [map_mul, Complex.conj_ofReal, wave_conj, neg_neg, sub_eq_add_neg, wave_add_right, ← wave_neg_left]
    ring
  have : ((∑ k, ‖fftn (fun x => (f x : ℂ)) k‖ ^ 2 : ℝ) : ℂ) = (((voxels n1 n2 n3 : ℝ) * ∑ x, f x ^ 2 : ℝ) : ℂ) := by
    rw [Complex.ofReal_sum]
    simp only [h]
    rw [Finset.sum_comm]
    push_cast
    rw [Finset.mul_sum]
    refine Finset.sum_congr rfl fun x _ => ?_
    rw [Finset.sum_comm]
    simp only [← Finset.mul_sum, sum_wave]
    rw [Finset.sum_eq_single x]
    · rw [if_pos (sub_self x)]; ring
    · intro y _ hy; rw [if_neg (sub_ne_zero.2 hy), mul_zero]
    · simp
  exact_mod_cast this

theorem sum_map_sort (s : Finset ℝ) (f : ℝ → ℝ) : ((s.sort (· ≤ ·)).map f).sum = ∑ k ∈ s, f k := by
  rw [Finset.sum_eq_multiset_sum, ← Finset.sort_eq s (· ≤ ·), Multiset.map_coe, Multiset.sum_coe]

/-- Summing the estimate over all returned wavenumbers counts every mode with positive `k1` exactly once. -/
theorem sum_spectrumAt (power : Box n1 n2 1 → ℝ) {d : ℝ} (hd : 0 < d) (s : ℝ) {kTol : ℝ} (hk0 : 0 < kTol)
    (hk : kTol < 2 * Real.pi / (n1 * d)) :
    ((k1Pos n1 d kTol).map (spectrumAt power d s kTol)).sum =
      (∑ b : Box n1 n2 1, if 0 < fftIdx n1 b.1 then power b else 0) * s := by
  have hstep := step_pos n1 hd
  set w := 2 * Real.pi / ((n1 : ℝ) * d) with hw
  unfold k1Pos
  rw [sum_map_sort]
  unfold spectrumAt
  rw [← Finset.sum_mul]
  congr 1
  rw [Finset.sum_comm]
  refine Finset.sum_congr rfl fun b _ => ?_
  -- within the tolerance of a returned wavenumber means equal to it
  have close : ∀ k ∈ ((Finset.univ.image fun j : ZMod n1 => |lfFreq n1 d j|).filter fun k => kTol < k),
      |lfFreq n1 d b.1 - k| < kTol → lfFreq n1 d b.1 = k ∧ 0 < fftIdx n1 b.1 := by
    intro k hkm hlt
    rw [Finset.mem_filter, Finset.mem_image] at hkm
    obtain ⟨⟨j, -, rfl⟩, hgt⟩ := hkm
    rw [lfFreq_eq hd, lfFreq_eq hd, ← hw, abs_mul, abs_of_pos hstep] at *
    have e : w * (fftIdx n1 b.1 : ℝ) - w * |(fftIdx n1 j : ℝ)| = w * ((fftIdx n1 b.1 - |fftIdx n1 j| : ℤ) : ℝ) := by
      push_cast; ring
    rw [e, abs_mul, abs_of_pos hstep] at hlt
    have hz : fftIdx n1 b.1 - |fftIdx n1 j| = 0 := by
      by_contra hne
      have : (1 : ℝ) ≤ |((fftIdx n1 b.1 - |fftIdx n1 j| : ℤ) : ℝ)| := by
        exact_mod_cast Int.one_le_abs hne
      nlinarith
    have hz' : fftIdx n1 b.1 = |fftIdx n1 j| := by omega
    refine ⟨by rw [hz']; push_cast; rfl, ?_⟩
    rw [hz']
    by_contra hc
    have : |fftIdx n1 j| = 0 := le_antisymm (by omega) (abs_nonneg _)
    have h0 : |(fftIdx n1 j : ℝ)| = 0 := by exact_mod_cast this
    rw [h0, mul_zero] at hgt
    linarith
  by_cases hb : 0 < fftIdx n1 b.1
  · rw [if_pos hb]
    have hpos1 : (1 : ℝ) ≤ fftIdx n1 b.1 := by exact_mod_cast hb
    have hfreq : 0 < lfFreq n1 d b.1 := by rw [lfFreq_eq hd, ← hw]; nlinarith
    rw [Finset.sum_eq_single (lfFreq n1 d b.1)]
    · rw [if_pos (by rw [sub_self, abs_zero]; exact hk0)]
    · intro k hkm hne
      rw [if_neg]
      intro hlt
      exact hne (close k hkm hlt).1.symm
    · intro hnot
      exfalso
      apply hnot
      rw [Finset.mem_filter, Finset.mem_image]
      refine ⟨⟨b.1, Finset.mem_univ _, abs_of_pos hfreq⟩, ?_⟩
      rw [lfFreq_eq hd, ← hw]
      nlinarith
  · rw [if_neg hb]
    refine Finset.sum_eq_zero fun k hkm => ?_
    rw [if_neg]
    intro hlt
    exact hb (close k hkm hlt).2

/-- The modes with positive `k1` carry half of the energy outside the lines `k1 = 0` and `k1 = -pi/dx`. -/
theorem half_energy (f : Box n1 n2 1 → ℝ) :
    2 * ∑ b : Box n1 n2 1, (if 0 < fftIdx n1 b.1 then ‖fftn (fun x => (f x : ℂ)) b‖ ^ 2 else 0) =
      ∑ b : Box n1 n2 1, (if fftIdx n1 b.1 = 0 ∨ 2 * fftIdx n1 b.1 = -(n1 : ℤ) then 0 else ‖fftn (fun x => (f x : ℂ)) b‖ ^ 2) := by
  have hneg : ∑ b : Box n1 n2 1, (if 0 < fftIdx n1 b.1 then ‖fftn (fun x => (f x : ℂ)) b‖ ^ 2 else 0) =
      ∑ b : Box n1 n2 1, (if fftIdx n1 b.1 < 0 ∧ 2 * fftIdx n1 b.1 ≠ -(n1 : ℤ) then ‖fftn (fun x => (f x : ℂ)) b‖ ^ 2 else 0) := by
    rw [← Equiv.sum_comp (Equiv.neg _)]
    refine Finset.sum_congr rfl fun b _ => ?_
    simp only [Equiv.neg_apply]
    have hn : ‖fftn (fun x => (f x : ℂ)) (-b)‖ = ‖fftn (fun x => (f x : ℂ)) b‖ := by
      rw [fftn_real, Complex.norm_conj]
    rw [hn]
    have hiff : (0 < fftIdx n1 (-b).1) ↔ (fftIdx n1 b.1 < 0 ∧ 2 * fftIdx n1 b.1 ≠ -(n1 : ℤ)) := by
      rw [show (-b).1 = -b.1 from rfl]
      have hlt := ZMod.val_lt b.1
      by_cases hN : 2 * b.1.val = n1
      · rw [neg_of_nyquist hN]
        have : fftIdx n1 b.1 = (b.1.val : ℤ) - n1 := by unfold fftIdx; rw [if_neg (by omega)]
        rw [this]
        omega
      · rw [fftIdx_neg hN]
        have : 2 * fftIdx n1 b.1 ≠ -(n1 : ℤ) := by unfold fftIdx; split_ifs <;> omega
        constructor
        · intro h; exact ⟨by omega, this⟩
        · intro h; omega
    by_cases h : fftIdx n1 b.1 < 0 ∧ 2 * fftIdx n1 b.1 ≠ -(n1 : ℤ)
    · rw [if_pos h, if_pos (hiff.2 h)]
    · rw [if_neg h, if_neg (fun hc => h (hiff.1 hc))]
  rw [two_mul]
  nth_rewrite 2 [hneg]
  rw [← Finset.sum_add_distrib]
  refine Finset.sum_congr rfl fun b _ => ?_
  have hn := NeZero.pos n1
  rcases lt_trichotomy (fftIdx n1 b.1) 0 with h | h | h
  · rw [if_neg (by omega)]
    by_cases hN : 2 * fftIdx n1 b.1 = -(n1 : ℤ)
    · rw [if_neg (by tauto), if_pos (Or.inr hN)]; ring
    · rw [if_pos ⟨h, hN⟩, if_neg (by omega)]; ring
  · rw [if_neg (by omega), if_neg (by omega), if_pos (Or.inl h)]; ring
  · rw [if_pos h, if_neg (by omega), if_neg (by omega)]; ring

/-- **C83** Energy balance of the estimate: twice the sum of the estimated spectrum times the wavenumber spacing is the mean
square of the field minus the energy on the lines `k1 = 0` and `k1 = -pi/dx`; in particular it never exceeds the mean square. -/
theorem C83_energy {lf : LowFreq} {u1 u2 : Mat} (hu : lf.u = some (u1, u2)) (h1 : 0 < lf.userN1) (h2 : 0 < lf.userN2)
    (hL : lf.userL1 = lf.userN1 * lf.userDx) (hd : 0 < lf.userDx) {kTol : ℝ} (hk0 : 0 < kTol)
    (hk : kTol < 2 * Real.pi / lf.userL1) :
    ∃ ks F11 F22, lf.computeSpectrum kTol = .ok (ks, F11, F22) ∧
      ∀ F u, (F = F11 ∧ u = u1) ∨ (F = F22 ∧ u = u2) →
        2 * (F.sum * (2 * Real.pi / lf.userL1)) ≤
          (∑ i ∈ Finset.range lf.userN1, ∑ j ∈ Finset.range lf.userN2, u.entry i j ^ 2) / (lf.userN1 * lf.userN2) ∧
        haveI : NeZero lf.userN1 := ⟨h1.ne'⟩
        haveI : NeZero lf.userN2 := ⟨h2.ne'⟩
        2 * (F.sum * (2 * Real.pi / lf.userL1)) =
          (∑ i ∈ Finset.range lf.userN1, ∑ j ∈ Finset.range lf.userN2, u.entry i j ^ 2) / (lf.userN1 * lf.userN2) -
          (∑ b : Box lf.userN1 lf.userN2 1, if fftIdx lf.userN1 b.1 = 0 ∨ 2 * fftIdx lf.userN1 b.1 = -(lf.userN1 : ℤ) then
            ‖fftn (fun x : Box lf.userN1 lf.userN2 1 => (u.entry x.1.val x.2.1.val : ℂ)) b‖ ^ 2 else 0) /
            ((lf.userN1 : ℝ) * lf.userN2) ^ 2 := by
  haveI : NeZero lf.userN1 := ⟨h1.ne'⟩
  haveI : NeZero lf.userN2 := ⟨h2.ne'⟩
  refine ⟨_, _, _, computeSpectrum_eq hu h1 h2 kTol, ?_⟩
  intro F u hF
  have q1 : (0 : ℝ) < lf.userN1 := by exact_mod_cast h1
  have q2 : (0 : ℝ) < lf.userN2 := by exact_mod_cast h2
  have hLpos : 0 < lf.userL1 := by rw [hL]; positivity
  have hpi := Real.pi_pos
  have hsumF : F.sum = (∑ b : Box lf.userN1 lf.userN2 1, if 0 < fftIdx lf.userN1 b.1 then
      ‖fftn (fun x : Box lf.userN1 lf.userN2 1 => (u.entry x.1.val x.2.1.val : ℂ)) b‖ ^ 2 else 0) *
      (lf.userL1 / (((lf.userN1 : ℝ) * lf.userN2) ^ 2 * (2 * Real.pi))) := by
    rw [hL] at hk
    rcases hF with ⟨rfl, rfl⟩ | ⟨rfl, rfl⟩ <;> exact sum_spectrumAt _ hd _ hk0 hk
  have hgrid : ∑ i ∈ Finset.range lf.userN1, ∑ j ∈ Finset.range lf.userN2, u.entry i j ^ 2 =
      ∑ x : Box lf.userN1 lf.userN2 1, u.entry x.1.val x.2.1.val ^ 2 := by
    have hz : ∀ (n : ℕ) [NeZero n] (f : ℕ → ℝ), ∑ i ∈ Finset.range n, f i = ∑ x : ZMod n, f x.val := by
      intro n _ f
      obtain ⟨m, rfl⟩ := Nat.exists_eq_succ_of_ne_zero (NeZero.ne n)
      rw [Finset.sum_range]
      rfl
    rw [Fintype.sum_prod_type, hz]
    refine Finset.sum_congr rfl fun a _ => ?_
    rw [Fintype.sum_prod_type, hz]
    refine Finset.sum_congr rfl fun b _ => ?_
    simp
  have hpars := parseval (fun x : Box lf.userN1 lf.userN2 1 => u.entry x.1.val x.2.1.val)
  have hhalf := half_energy (fun x : Box lf.userN1 lf.userN2 1 => u.entry x.1.val x.2.1.val)
  set A := ∑ b : Box lf.userN1 lf.userN2 1, (if 0 < fftIdx lf.userN1 b.1 then
      ‖fftn (fun x : Box lf.userN1 lf.userN2 1 => (u.entry x.1.val x.2.1.val : ℂ)) b‖ ^ 2 else 0) with hA
  set Z := ∑ b : Box lf.userN1 lf.userN2 1, (if fftIdx lf.userN1 b.1 = 0 ∨ 2 * fftIdx lf.userN1 b.1 = -(lf.userN1 : ℤ) then
      ‖fftn (fun x : Box lf.userN1 lf.userN2 1 => (u.entry x.1.val x.2.1.val : ℂ)) b‖ ^ 2 else 0) with hZ
  have hsplit : 2 * A + Z = (voxels lf.userN1 lf.userN2 1 : ℝ) *
      ∑ x : Box lf.userN1 lf.userN2 1, u.entry x.1.val x.2.1.val ^ 2 := by
    rw [hhalf, ← hpars, hZ, ← Finset.sum_add_distrib]
    refine Finset.sum_congr rfl fun b _ => ?_
    split_ifs <;> ring
  have hZ0 : 0 ≤ Z := Finset.sum_nonneg fun b _ => by split_ifs <;> positivity
  have hv : (voxels lf.userN1 lf.userN2 1 : ℝ) = lf.userN1 * lf.userN2 := by unfold voxels; push_cast; ring
  have eq : 2 * (F.sum * (2 * Real.pi / lf.userL1)) =
      (∑ i ∈ Finset.range lf.userN1, ∑ j ∈ Finset.range lf.userN2, u.entry i j ^ 2) / (lf.userN1 * lf.userN2) -
        Z / ((lf.userN1 : ℝ) * lf.userN2) ^ 2 := by
    rw [hsumF, hgrid]
    rw [hv] at hsplit
    have : 2 * A = (lf.userN1 : ℝ) * lf.userN2 * (∑ x : Box lf.userN1 lf.userN2 1, u.entry x.1.val x.2.1.val ^ 2) - Z := by
      linarith
    field_simp
    linarith
  refine ⟨?_, eq⟩
  rw [eq]
  have : 0 ≤ Z / ((lf.userN1 : ℝ) * lf.userN2) ^ 2 := by positivity
  linarith

end

/-! ### C74 at zero wavenumber -/

/-- **C74** At `k1 = 0` the code returns 0 without integrating, although the integral of the first integrand there is
strictly positive: the returned spectrum of `u` is discontinuous at zero. -/
theorem C74_zero_wavenumber (lf : LowFreq) (hc : 0 < lf.c) (hL : 0 < lf.cfg.L2d)
    (hcut : 1e-30 ≤ (1 / lf.cfg.L2d ^ 2) ^ (7 / 3 : ℝ)) {a : ℝ} (ha : 1e-11 ≤ a) :
    lf.analyticalSpectrum a 0 0 = 0 ∧
    0 < ∫ k2 in (-|a|)..|a|, lfIntegrand lf.c lf.cfg.L2d lf.cfg.psi lf.cfg.zi 0 k2 0 := by
  have ha0 : 0 < a := lt_of_lt_of_le (by norm_num) ha
  constructor
  · unfold LowFreq.analyticalSpectrum; simp only; rw [if_pos (by rw [abs_zero]; norm_num)]
  · rw [abs_of_pos ha0]
    have hpos : ∀ k2 : ℝ, 1e-12 ≤ k2 → 0 < lfIntegrand lf.c lf.cfg.L2d lf.cfg.psi lf.cfg.zi 0 k2 0 := by
      intro k2 hk
      have hk0 : 0 < k2 := lt_of_lt_of_le (by norm_num) hk
      have hsq : 1e-24 ≤ (0 : ℝ) ^ 2 + k2 ^ 2 := by
        have : (1e-12 : ℝ) ^ 2 ≤ k2 ^ 2 := by gcongr
        norm_num at this ⊢; exact this
      unfold lfIntegrand
      simp only
      rw [if_neg (not_lt.2 hsq)]
      have hE : 0 < lfE lf.c lf.cfg.L2d lf.cfg.psi lf.cfg.zi 0 k2 := by
        unfold lfE
        simp only
        have hm : 0 < max (lfKappaSq lf.cfg.psi 0 k2) 1e-24 := lt_max_of_lt_right (by norm_num)
        have hden := shape_den_ge (z := lf.cfg.zi) hL hcut (Real.sqrt (max (lfKappaSq lf.cfg.psi 0 k2) 1e-24))
        rw [Real.sq_sqrt hm.le] at hden
        rw [if_neg (not_lt.2 hden)]
        have hs := Real.sqrt_pos.2 hm
        exact div_pos (by positivity) (lt_of_lt_of_le (by norm_num) hden)
      have := Real.pi_pos
      positivity
    have hint := lfIntegrand_intervalIntegrable hc.le lf.cfg.L2d lf.cfg.psi lf.cfg.zi 0 0 ha0.le
    have hsub : ∫ k2 in (a / 2)..a, lfIntegrand lf.c lf.cfg.L2d lf.cfg.psi lf.cfg.zi 0 k2 0 ≤
        ∫ k2 in (-a)..a, lfIntegrand lf.c lf.cfg.L2d lf.cfg.psi lf.cfg.zi 0 k2 0 :=
      intervalIntegral.integral_mono_interval (by linarith) (by linarith) (le_refl _)
        (Filter.Eventually.of_forall fun x => lfIntegrand_nonneg hc.le _ _ _ _ _ _) hint
    refine lt_of_lt_of_le ?_ hsub
    refine intervalIntegral.intervalIntegral_pos_of_pos_on ?_ ?_ (by linarith)
    · refine hint.mono_set ?_
      rw [Set.uIcc_of_le (by linarith), Set.uIcc_of_le (by linarith)]
      exact Set.Icc_subset_Icc (by linarith) (le_refl _)
    · intro x hx
      refine hpos x ?_
      have := hx.1
      have : (1e-12 : ℝ) ≤ a / 2 := by linarith [show (1e-11 : ℝ) / 2 ≥ 1e-12 by norm_num]
      linarith

end
end Verif
