import Verif.Props.LowFreqVariance
import Verif.Lemmas.RiemannLine

/-!
# Covariances of the generated low-frequency fields and expectation of the spectrum estimate (C111)
-/

namespace Verif

noncomputable section
open Classical MeasureTheory

/-- The situation of the theorems below: a generator whose absolute cut-offs are inactive on its own grid. -/
structure LowFreqRegular (cfg : LFConfig) (lf : LowFreq) : Prop where
  pos : cfg.Pos
  init : lfInit cfg = .ok lf
  sigma2 : 0 < cfg.sigma2
  cut : 1e-30 ≤ (1 / cfg.L2d ^ 2) ^ (7 / 3 : ℝ)
  cell : 1e-16 ≤ lf.compDx * lf.compDy
  k1 : 1e-20 ≤ (2 * Real.pi / lf.compL1 * Real.cos cfg.psi) ^ 2
  k2 : 1e-20 ≤ (2 * Real.pi / lf.compL2 * Real.sin cfg.psi) ^ 2

/-- Squared amplitudes on the computational grid. -/
theorem LowFreqRegular.normSq {cfg : LFConfig} {lf : LowFreq} (r : LowFreqRegular cfg lf) [NeZero lf.compN1] [NeZero lf.compN2]
    (c : Fin 2) (k : Box lf.compN1 lf.compN2 1) : lfQr lf c k * (starRingEnd ℂ) (lfQr lf c k) =
      (((2 * Real.pi) ^ 2 / (lf.compDx * lf.compDy) * if lfKept c k then
        lfIntegrand lf.c cfg.L2d cfg.psi cfg.zi c (Spec.waveNumber lf.compN2 lf.compDy k.2.1.val)
          (Spec.waveNumber lf.compN1 lf.compDx k.1.val) else 0 : ℝ) : ℂ) := by
  obtain ⟨hp, h, hs, hcut, hd, hk1, hk2⟩ := r
  obtain ⟨⟨-, c1, -, c2⟩, -, ⟨l1, l2⟩, -⟩ := C67_grid hp h
  obtain ⟨c', hcc⟩ := lfInit_computeC h
  obtain ⟨lf0, h0, hcfg, hlc, -⟩ := lfInit_ok hp hcc
  rw [h] at h0
  obtain rfl := Except.ok.inj h0
  have hc : 0 ≤ lf.c := by rw [hlc]; exact ((C71_sign hcc).2 hs).le
  have hw : ∀ (n : ℕ) [NeZero n] (d : ℝ) (x : ZMod n), Spec.waveNumber n d x.val = lfFreq n d x := by
    intro n _ d x
    rw [waveNumber_eq d (ZMod.val_lt x), ZMod.natCast_zmod_val]
  have hk : ∀ a < lf.compN1, ∀ b < lf.compN2, a ≠ 0 ∨ b ≠ 0 →
      1e-20 ≤ Spec.waveNumber lf.compN1 lf.compDx a ^ 2 + Spec.waveNumber lf.compN2 lf.compDy b ^ 2 ∧
      1e-20 ≤ 2 * ((Spec.waveNumber lf.compN1 lf.compDx a * Real.cos cfg.psi) ^ 2 +
        (Spec.waveNumber lf.compN2 lf.compDy b * Real.sin cfg.psi) ^ 2) := by
    intro a ha b hb hab
    have hc2 := Real.sin_sq_add_cos_sq cfg.psi
    have s2 := sq_nonneg (Real.sin cfg.psi)
    have s3 := sq_nonneg (Real.cos cfg.psi)
    have w1 := sq_nonneg (Spec.waveNumber lf.compN1 lf.compDx a)
    have w2 := sq_nonneg (Spec.waveNumber lf.compN2 lf.compDy b)
    rw [mul_pow] at hk1 hk2 ⊢
    rw [mul_pow]
    rcases hab with h0 | h0
    · have := waveNumber_sq (d := lf.compDx) (NeZero.pos lf.compN1) ha h0
      rw [← l1] at this
      constructor <;> nlinarith
    · have := waveNumber_sq (d := lf.compDy) (NeZero.pos lf.compN2) hb h0
      rw [← l2] at this
      constructor <;> nlinarith
  rw [lfQr_normSq lf hc (by rw [hcfg]; exact hp.1) (by rw [hcfg]; exact hcut) hd (fun hk0 => by
      have hne : k.1.val ≠ 0 ∨ k.2.1.val ≠ 0 := by
        by_contra hcon
        push Not at hcon
        refine hk0 (Prod.ext ((ZMod.val_eq_zero _).1 hcon.1) (Prod.ext ((ZMod.val_eq_zero _).1 hcon.2) (Subsingleton.elim _ _)))
      have := hk _ (ZMod.val_lt k.1) _ (ZMod.val_lt k.2.1) hne
      rw [hw, hw, ← hcfg] at this
      exact this) c]
  simp only [hw, hcfg]

theorem stdAddChar_wave {n : ℕ} [NeZero n] {d : ℝ} (hd : d ≠ 0) (p : ZMod n) (s i i' : ℕ) :
    (ZMod.stdAddChar (p * (((s + i : ℕ) : ZMod n) - ((s + i' : ℕ) : ZMod n))) : ℂ) =
      Complex.exp (((Spec.waveNumber n d p.val * d * ((i : ℝ) - i') : ℝ) : ℂ) * Complex.I) := by
  have hn : (n : ℂ) ≠ 0 := by exact_mod_cast NeZero.ne n
  have hd' : (d : ℂ) ≠ 0 := by exact_mod_cast hd
  have hp : ((signedIdx n p.val : ℤ) : ZMod n) = p := by
    unfold signedIdx
    split_ifs <;> simp
  have hx : p * (((s + i : ℕ) : ZMod n) - ((s + i' : ℕ) : ZMod n)) =
      ((signedIdx n p.val * ((i : ℤ) - i') : ℤ) : ZMod n) := by
    rw [Int.cast_mul, hp]
    push_cast
    ring
  rw [hx, ZMod.stdAddChar_coe, waveNumber_signed]
  congr 1
  push_cast
  field_simp

/-- The modes missing from component `c`: the Nyquist line of the wavenumber that multiplies it. -/
def Spec.missing (c : Fin 2) (n1 n2 a b : ℕ) : Prop := match c with
  | 0 => 2 * b = n2
  | 1 => 2 * a = n1

/-- Variance that mode `(a, b)` of the computational grid contributes to component `c`: the analytical spectral density times
the size of a cell of the wavenumber grid. -/
def Spec.modeVariance (cfg : LFConfig) (lf : LowFreq) (c : Fin 2) (a b : ℕ) : ℝ :=
  if Spec.missing c lf.compN1 lf.compN2 a b then 0 else
    2 * Real.pi / lf.compL1 * (2 * Real.pi / lf.compL2) *
      lfIntegrand lf.c cfg.L2d cfg.psi cfg.zi c (Spec.waveNumber lf.compN2 lf.compDy b) (Spec.waveNumber lf.compN1 lf.compDx a)

/-- Covariance of the field on the computational grid. -/
theorem lfFull_covariance {Ω : Type} [MeasurableSpace Ω] {μ : Measure Ω} {cfg : LFConfig} {lf : LowFreq}
    (r : LowFreqRegular cfg lf) [NeZero lf.compN1] [NeZero lf.compN2] (γ : ℕ → Ω → ℝ) (hL2 : ∀ m, MemLp (γ m) 2 μ)
    (hcov : ∀ m n, ∫ ω, γ m ω * γ n ω ∂μ = if m = n then 1 else 0) (pos : ℕ) (c : Fin 2) (s t i i' j j' : ℕ) :
    ∫ ω, lfFull lf (fun z : Box lf.compN1 lf.compN2 1 => lfNoise (fun m => γ m ω) pos z) c ((s + i : ℕ), (t + j : ℕ), 0) *
        lfFull lf (fun z : Box lf.compN1 lf.compN2 1 => lfNoise (fun m => γ m ω) pos z) c ((s + i' : ℕ), (t + j' : ℕ), 0) ∂μ =
      ∑ a ∈ Finset.range lf.compN1, ∑ b ∈ Finset.range lf.compN2, Spec.modeVariance cfg lf c a b *
        Real.cos (Spec.waveNumber lf.compN1 lf.compDx a * lf.compDx * ((i : ℝ) - i') +
          Spec.waveNumber lf.compN2 lf.compDy b * lf.compDy * ((j : ℝ) - j')) := by
  obtain ⟨-, -, ⟨l1, l2⟩, -⟩ := C67_grid r.pos r.init
  rw [lf_cov (fun (z : Box lf.compN1 lf.compN2 1) ω => lfNoise (fun m => γ m ω) pos z) (fun z => hL2 _)
    (lfNoise_white γ hcov pos)]
  set x : Box lf.compN1 lf.compN2 1 := ((s + i : ℕ), (t + j : ℕ), 0) with hx
  set y : Box lf.compN1 lf.compN2 1 := ((s + i' : ℕ), (t + j' : ℕ), 0) with hy
  have hd0 : lf.compDx * lf.compDy ≠ 0 := (lt_of_lt_of_le (by norm_num) r.cell).ne'
  have d1 := left_ne_zero_of_mul hd0
  have d2 := right_ne_zero_of_mul hd0
  have hwave : ∀ k : Box lf.compN1 lf.compN2 1, wave k (x - y) =
      Complex.exp (((Spec.waveNumber lf.compN1 lf.compDx k.1.val * lf.compDx * ((i : ℝ) - i') +
        Spec.waveNumber lf.compN2 lf.compDy k.2.1.val * lf.compDy * ((j : ℝ) - j') : ℝ) : ℂ) * Complex.I) := by
    intro k
    unfold wave
    simp only [hx, hy, Prod.mk_sub_mk]
    rw [stdAddChar_wave d1, stdAddChar_wave d2, Complex.ofReal_add, add_mul, Complex.exp_add]
    simp
  have hcorr := lfImp_corr lf c c x y
  simp only [r.normSq c, hwave] at hcorr
  have hre := congrArg Complex.re hcorr
  rw [Complex.ofReal_re] at hre
  rw [hre, show (1 / (voxels lf.compN1 lf.compN2 1 : ℂ)) = ((1 / (voxels lf.compN1 lf.compN2 1 : ℝ) : ℝ) : ℂ) by push_cast; rfl,
    Complex.re_ofReal_mul, Complex.re_sum]
  simp only [Complex.re_ofReal_mul, Complex.exp_ofReal_mul_I_re]
  rw [range_eq_box, Finset.mul_sum]
  refine Finset.sum_congr rfl fun k _ => ?_
  have q1 : (lf.compN1 : ℝ) ≠ 0 := by exact_mod_cast NeZero.ne lf.compN1
  have q2 : (lf.compN2 : ℝ) ≠ 0 := by exact_mod_cast NeZero.ne lf.compN2
  have hkept : lfKept c k ↔ ¬ Spec.missing c lf.compN1 lf.compN2 k.1.val k.2.1.val := by
    clear * -
    fin_cases c <;> rfl
  unfold voxels Spec.modeVariance
  rw [l1, l2]
  by_cases q : lfKept c k
  · rw [if_pos q, if_neg (hkept.1 q)]
    push_cast
    field_simp
  · rw [if_neg q, if_pos (by_contra fun z => q (hkept.2 z))]
    ring

/-- **C111** Covariance of the returned entries at any two points: the Fourier sum of the analytical spectral density over the
wavenumbers of the computational grid (one Nyquist line is missing). -/
theorem C111_covariance {Ω : Type} [MeasurableSpace Ω] {μ : Measure Ω} {cfg : LFConfig} {lf : LowFreq}
    (r : LowFreqRegular cfg lf) (γ : ℕ → Ω → ℝ) (hL2 : ∀ m, MemLp (γ m) 2 μ)
    (hcov : ∀ m n, ∫ ω, γ m ω * γ n ω ∂μ = if m = n then 1 else 0) (pos : ℕ) {u : Ω → Mat × Mat}
    (hu : ∀ ω, ∃ s, lf.generate (fun m => γ m ω) pos = (.ok (u ω), s)) (c : Fin 2) {i i' j j' : ℕ} (hi : i < lf.userN1)
    (hi' : i' < lf.userN1) (hj : j < lf.userN2) (hj' : j' < lf.userN2) :
    ∫ ω, (Spec.pick c (u ω)).entry i j * (Spec.pick c (u ω)).entry i' j' ∂μ =
      ∑ a ∈ Finset.range lf.compN1, ∑ b ∈ Finset.range lf.compN2, Spec.modeVariance cfg lf c a b *
        Real.cos (Spec.waveNumber lf.compN1 lf.compDx a * lf.compDx * ((i : ℝ) - i') +
          Spec.waveNumber lf.compN2 lf.compDy b * lf.compDy * ((j : ℝ) - j')) := by
  obtain ⟨⟨-, c1, -, c2⟩, -⟩ := C67_grid r.pos r.init
  haveI : NeZero lf.compN1 := ⟨by omega⟩
  haveI : NeZero lf.compN2 := ⟨by omega⟩
  have e : ∀ ω {i j : ℕ}, i < lf.userN1 → j < lf.userN2 → (Spec.pick c (u ω)).entry i j =
      lfFull lf (fun z : Box lf.compN1 lf.compN2 1 => lfNoise (fun m => γ m ω) pos z) c
        (((lf.compN1 - lf.userN1) / 2 + i : ℕ), ((lf.compN2 - lf.userN2) / 2 + j : ℕ), 0) := by
    intro ω i j hi hj
    obtain ⟨s, hs⟩ := hu ω
    exact pick_entry r.pos r.init hs c hi hj
  simp only [fun ω => e ω hi hj, fun ω => e ω hi' hj']
  exact lfFull_covariance r γ hL2 hcov pos c _ _ i i' j j'

/-! ### Expectation of the spectrum estimate -/

/-- The Fejér kernel, normalised to one at zero. -/
def Spec.fejer (n : ℕ) (x : ℝ) : ℝ :=
  ((∑ i ∈ Finset.range n, Real.cos (x * i)) ^ 2 + (∑ i ∈ Finset.range n, Real.sin (x * i)) ^ 2) / (n : ℝ) ^ 2

theorem fejer_sum (n : ℕ) (hn : 0 < n) (x : ℝ) :
    ∑ i ∈ Finset.range n, ∑ i' ∈ Finset.range n, Real.cos (x * ((i : ℝ) - i')) = (n : ℝ) ^ 2 * Spec.fejer n x := by
  unfold Spec.fejer
  have h : (n : ℝ) ≠ 0 := by exact_mod_cast hn.ne'
  rw [mul_div_cancel₀ _ (pow_ne_zero 2 h), sq, sq, Finset.sum_mul_sum, Finset.sum_mul_sum, ← Finset.sum_add_distrib]
  refine Finset.sum_congr rfl fun i _ => ?_
  rw [← Finset.sum_add_distrib]
  refine Finset.sum_congr rfl fun i' _ => ?_
  rw [mul_sub, Real.cos_sub]

theorem fejer_sum_mul (n : ℕ) (hn : 0 < n) (x y : ℝ) :
    ∑ i ∈ Finset.range n, ∑ i' ∈ Finset.range n, Real.cos (x * ((i : ℝ) - i')) * Real.cos (y * ((i : ℝ) - i')) =
      (n : ℝ) ^ 2 * ((Spec.fejer n (x - y) + Spec.fejer n (x + y)) / 2) := by
  rw [mul_div_assoc', mul_add, ← fejer_sum n hn, ← fejer_sum n hn, ← Finset.sum_add_distrib, Finset.sum_div]
  refine Finset.sum_congr rfl fun i _ => ?_
  rw [← Finset.sum_add_distrib, Finset.sum_div]
  refine Finset.sum_congr rfl fun i' _ => ?_
  rw [sub_mul, add_mul, Real.cos_sub, Real.cos_add]
  ring

/-- Parseval along the second axis. -/
theorem line_energy {n m : ℕ} [NeZero n] [NeZero m] (f : ℕ → ℕ → ℝ) (α : ZMod n) :
    ∑ y : ZMod m, ‖fftn (fun x : Box n m 1 => (f x.1.val x.2.1.val : ℂ)) (α, y, 0)‖ ^ 2 =
      m * ∑ j ∈ Finset.range m, ∑ i ∈ Finset.range n, ∑ i' ∈ Finset.range n,
        f i j * f i' j * Real.cos (2 * Real.pi * α.val / n * ((i : ℝ) - i')) := by
  have hn : (n : ℝ) ≠ 0 := by exact_mod_cast NeZero.ne n
  have h : ∀ k : Box n m 1, ((‖fftn (fun x : Box n m 1 => (f x.1.val x.2.1.val : ℂ)) k‖ ^ 2 : ℝ) : ℂ) =
      ∑ x : Box n m 1, ∑ z : Box n m 1, (f x.1.val x.2.1.val : ℂ) * f z.1.val z.2.1.val * wave k (z - x) := by
    intro k
    rw [← Complex.normSq_eq_norm_sq, Complex.normSq_eq_conj_mul_self]
    unfold fftn
    rw [map_sum, mul_comm, Finset.sum_mul_sum]
    refine Finset.sum_congr rfl fun x _ => Finset.sum_congr rfl fun y _ => ?_
    rw [map_mul, Complex.conj_ofReal, wave_conj, neg_neg, sub_eq_add_neg, wave_add_right, ← wave_neg_left]
    ring
  have hz1 : ∀ (g : ZMod 1 → ℂ), ∑ z, g z = g 0 := sum_zmod_one
  have key : ((∑ y : ZMod m, ‖fftn (fun x : Box n m 1 => (f x.1.val x.2.1.val : ℂ)) (α, y, 0)‖ ^ 2 : ℝ) : ℂ) =
      ∑ i : ZMod n, ∑ j : ZMod m, ∑ i' : ZMod n, (f i.val j.val : ℂ) * f i'.val j.val * (m * ZMod.stdAddChar (α * (i' - i))) := by
    rw [Complex.ofReal_sum]
    simp only [h]
    rw [Finset.sum_comm, Fintype.sum_prod_type]
    refine Finset.sum_congr rfl fun i _ => ?_
    rw [Fintype.sum_prod_type]
    refine Finset.sum_congr rfl fun j _ => ?_
    rw [hz1, Finset.sum_comm, Fintype.sum_prod_type]
    refine Finset.sum_congr rfl fun i' _ => ?_
    rw [Fintype.sum_prod_type, Finset.sum_eq_single j]
    · rw [hz1]
      have : ∀ y : ZMod m, wave ((α, y, 0) : Box n m 1) ((i', j, 0) - (i, j, 0)) = ZMod.stdAddChar (α * (i' - i)) := by
        intro y; unfold wave; simp
      simp only [this]
      rw [Finset.sum_const, Finset.card_univ, ZMod.card, nsmul_eq_mul]
      ring
    · intro j' _ hj'
      rw [hz1]
      have : ∀ y : ZMod m, wave ((α, y, 0) : Box n m 1) ((i', j', 0) - (i, j, 0)) =
          ZMod.stdAddChar (α * (i' - i)) * ZMod.stdAddChar (y * (j' - j)) := by
        intro y; unfold wave; simp
      simp only [this, ← Finset.mul_sum]
      rw [sum_stdAddChar, if_neg (sub_ne_zero.2 hj')]
      simp
    · simp
  have hre := congrArg Complex.re key
  rw [Complex.ofReal_re] at hre
  rw [hre, Complex.re_sum]
  simp only [Complex.re_sum]
  rw [range_eq_zmod m, Finset.sum_comm, Finset.mul_sum]
  refine Finset.sum_congr rfl fun j _ => ?_
  rw [range_eq_zmod n, Finset.mul_sum]
  refine Finset.sum_congr rfl fun i _ => ?_
  rw [range_eq_zmod n, Finset.mul_sum]
  refine Finset.sum_congr rfl fun i' _ => ?_
  have e := stdAddChar_wave (n := n) (d := 1) one_ne_zero α 0 i'.val i.val
  simp only [zero_add, ZMod.natCast_zmod_val] at e
  have e2 : Complex.exp (((Spec.waveNumber n 1 α.val * 1 * ((i'.val : ℝ) - i.val) : ℝ) : ℂ) * Complex.I) =
      Complex.exp (((2 * Real.pi * α.val / n * ((i'.val : ℝ) - i.val) : ℝ) : ℂ) * Complex.I) := by
    unfold Spec.waveNumber
    by_cases q : 2 * α.val < n
    · rw [if_pos q, mul_one, mul_one]
    · rw [if_neg q, mul_one, mul_one]
      rw [Complex.exp_eq_exp_iff_exists_int]
      refine ⟨-((i'.val : ℤ) - i.val), ?_⟩
      have hn' : (n : ℂ) ≠ 0 := by exact_mod_cast hn
      push_cast
      field_simp
      ring
  rw [e, e2, show (f i.val j.val : ℂ) * f i'.val j.val * (m * Complex.exp (((2 * Real.pi * α.val / n * ((i'.val : ℝ) - i.val) : ℝ) : ℂ) * Complex.I)) =
    ((m * (f i.val j.val * f i'.val j.val) : ℝ) : ℂ) * Complex.exp (((2 * Real.pi * α.val / n * ((i'.val : ℝ) - i.val) : ℝ) : ℂ) * Complex.I) by
      push_cast; ring, Complex.re_ofReal_mul, Complex.exp_ofReal_mul_I_re, ← Real.cos_neg, neg_mul_eq_mul_neg, neg_sub]
  ring

/-- The wavenumbers of the estimate are the positive multiples of the spacing up to the Nyquist wavenumber. -/
theorem k1Pos_eq {n : ℕ} [NeZero n] {d kTol : ℝ} (hd : 0 < d) (h0 : 0 ≤ kTol) (ht : kTol < 2 * Real.pi / (n * d)) :
    k1Pos n d kTol = (List.range (n / 2)).map fun j : ℕ => 2 * Real.pi / (n * d) * ((j : ℝ) + 1) := by
  set w := 2 * Real.pi / (n * d) with hw
  have w0 : 0 < w := step_pos n hd
  have hp : ((List.range (n / 2)).map fun j : ℕ => w * ((j : ℝ) + 1)).Pairwise (· < ·) := by
    rw [List.pairwise_map]
    refine List.pairwise_lt_range.imp fun {i j} hij => ?_
    have : (i : ℝ) < j := by exact_mod_cast hij
    exact mul_lt_mul_of_pos_left (by linarith) w0
  refine List.Perm.eq_of_pairwise (le := (· < ·)) (fun a b _ _ h1 h2 => absurd h1 (lt_asymm h2)) (k1Pos_pairwise d kTol) hp
    ((List.perm_ext_iff_of_nodup ((k1Pos_pairwise d kTol).imp fun h => h.ne) (hp.imp fun h => h.ne)).2 fun k => ?_)
  rw [mem_k1Pos, List.mem_map]
  have habs : ∀ j : ZMod n, |lfFreq n d j| = w * ((fftIdx n j).natAbs : ℝ) := by
    intro j
    rw [lfFreq_eq hd, ← hw, abs_mul, abs_of_pos w0, Nat.cast_natAbs, Int.cast_abs]
  constructor
  · rintro ⟨hk, j, rfl⟩
    rw [habs] at hk ⊢
    have b := fftIdx_bounds j
    have hne : (fftIdx n j).natAbs ≠ 0 := by
      intro hz
      rw [hz] at hk
      simp at hk
      linarith
    refine ⟨(fftIdx n j).natAbs - 1, List.mem_range.2 (by omega), ?_⟩
    rw [Nat.cast_sub (by omega)]
    push_cast
    ring
  · rintro ⟨j, hj, rfl⟩
    rw [List.mem_range] at hj
    have hj0 : (0 : ℝ) ≤ j := Nat.cast_nonneg j
    refine ⟨by nlinarith, ((j + 1 : ℕ) : ZMod n), ?_⟩
    have hv : ((j + 1 : ℕ) : ZMod n).val = j + 1 := ZMod.val_cast_of_lt (by omega)
    have : (fftIdx n ((j + 1 : ℕ) : ZMod n)).natAbs = j + 1 := by
      unfold fftIdx
      rw [hv]
      split_ifs <;> omega
    rw [habs, this]
    push_cast
    ring

theorem spectrumAt_mul {n m : ℕ} [NeZero n] [NeZero m] (power : Box n m 1 → ℝ) {d kTol : ℝ} (s : ℝ) (hd : 0 < d)
    (h0 : 0 < kTol) (ht : kTol < 2 * Real.pi / (n * d)) {a : ℕ} (ha : 2 * a < n) :
    spectrumAt power d s kTol (2 * Real.pi / (n * d) * a) = (∑ y : ZMod m, power ((a : ZMod n), y, 0)) * s := by
  unfold spectrumAt
  congr 1
  have w0 : 0 < 2 * Real.pi / (n * d) := step_pos n hd
  have hidx : fftIdx n (a : ZMod n) = a := by
    unfold fftIdx
    rw [ZMod.val_cast_of_lt (by omega), if_pos (by omega)]
  have hiff : ∀ x : ZMod n, |lfFreq n d x - 2 * Real.pi / (n * d) * a| < kTol ↔ x = (a : ZMod n) := by
    intro x
    rw [lfFreq_eq hd, ← mul_sub, abs_mul, abs_of_pos w0]
    constructor
    · intro hx
      have hz : |((fftIdx n x - (a : ℤ) : ℤ) : ℝ)| < 1 := by
        push_cast
        by_contra hcon
        push Not at hcon
        nlinarith
      have hz' : |fftIdx n x - (a : ℤ)| < 1 := by exact_mod_cast hz
      rw [Int.abs_lt_one_iff] at hz'
      have hc : ((fftIdx n x : ℤ) : ZMod n) = x := by
        unfold fftIdx
        split_ifs <;> simp
      rw [← hc, show fftIdx n x = (a : ℤ) by omega, Int.cast_natCast]
    · rintro rfl
      rw [hidx]
      simpa using h0
  rw [Fintype.sum_prod_type, Finset.sum_eq_single (a : ZMod n)]
  · rw [Fintype.sum_prod_type]
    refine Finset.sum_congr rfl fun y _ => ?_
    have hz1 : ∀ (g : ZMod 1 → ℝ), ∑ z, g z = g 0 := fun g => by
      exact Finset.sum_eq_single (0 : ZMod 1) (fun b _ hb => absurd (Subsingleton.elim b 0) hb)
        (fun h => absurd (Finset.mem_univ _) h)
    rw [hz1]
    simp only
    rw [if_pos ((hiff _).2 rfl)]
  · intro x _ hx
    refine Finset.sum_eq_zero fun y _ => ?_
    simp only
    rw [if_neg (fun h => hx ((hiff _).1 h))]
  · simp

theorem pick_memLp {Ω : Type} [MeasurableSpace Ω] {μ : Measure Ω} {cfg : LFConfig} {lf : LowFreq} (hp : cfg.Pos)
    (h : lfInit cfg = .ok lf) (γ : ℕ → Ω → ℝ) (hL2 : ∀ m, MemLp (γ m) 2 μ) (pos : ℕ) {u : Ω → Mat × Mat}
    (hu : ∀ ω, ∃ s, lf.generate (fun m => γ m ω) pos = (.ok (u ω), s)) (c : Fin 2) {i j : ℕ} (hi : i < lf.userN1)
    (hj : j < lf.userN2) : MemLp (fun ω => (Spec.pick c (u ω)).entry i j) 2 μ := by
  obtain ⟨⟨-, c1, -, c2⟩, -⟩ := C67_grid hp h
  haveI : NeZero lf.compN1 := ⟨by omega⟩
  haveI : NeZero lf.compN2 := ⟨by omega⟩
  have e : ∀ ω, (Spec.pick c (u ω)).entry i j =
      ∑ z : Box lf.compN1 lf.compN2 1, lfImp lf c (((((lf.compN1 - lf.userN1) / 2 + i : ℕ),
        ((lf.compN2 - lf.userN2) / 2 + j : ℕ), 0) : Box lf.compN1 lf.compN2 1) - z) * lfNoise (fun m => γ m ω) pos z := by
    intro ω
    obtain ⟨s, hs⟩ := hu ω
    rw [pick_entry hp h hs c hi hj, lfFull_imp]
  simp only [e]
  exact memLp_finsetSum _ fun z _ => (hL2 _).const_mul _

/-- What `compute_spectrum` returns after `generate`, in terms of the returned fields. -/
theorem spectrum_value {cfg : LFConfig} (hp : cfg.Pos) {lf : LowFreq} (h : lfInit cfg = .ok lf) (g : ℕ → ℝ) (pos : ℕ) {kTol : ℝ}
    (h0 : 0 < kTol) (ht : kTol < 2 * Real.pi / lf.userL1) :
    ∃ (u : Mat × Mat) (F : Fin 2 → List ℝ), (∃ s, lf.generate g pos = (.ok u, s)) ∧
      (lf.generate g pos).2.1.computeSpectrum kTol =
        .ok ((List.range (lf.userN1 / 2)).map (fun j : ℕ => 2 * Real.pi / lf.userL1 * ((j : ℝ) + 1)), F 0, F 1) ∧
      (∀ c, (F c).length = lf.userN1 / 2) ∧
      ∀ (c : Fin 2) (a : ℕ), 0 < a → 2 * a < lf.userN1 → (F c).getD (a - 1) 0 =
        lf.userL1 / ((lf.userN1 : ℝ) ^ 2 * lf.userN2 * (2 * Real.pi)) *
          ∑ j ∈ Finset.range lf.userN2, ∑ i ∈ Finset.range lf.userN1, ∑ i' ∈ Finset.range lf.userN1,
            (Spec.pick c u).entry i j * (Spec.pick c u).entry i' j *
              Real.cos (2 * Real.pi * a / lf.userN1 * ((i : ℝ) - i')) := by
  obtain ⟨u1, u2, f1, f2, lf', hgen, hlf, -⟩ := generate_spec hp h g pos
  obtain ⟨cc, hcc⟩ := lfInit_computeC h
  obtain ⟨lf0, e0, -, -, -, -, hL1, -, hN1, hN2, hdx, -⟩ := lfInit_ok hp hcc
  rw [h] at e0
  obtain rfl := Except.ok.inj e0
  have n1 : 0 < lf.userN1 := by rw [hN1]; positivity
  have n2 : 0 < lf.userN2 := by rw [hN2]; positivity
  haveI : NeZero lf.userN1 := ⟨n1.ne'⟩
  haveI : NeZero lf.userN2 := ⟨n2.ne'⟩
  have q1 : (0 : ℝ) < lf.userN1 := by exact_mod_cast n1
  have q2 : (0 : ℝ) < lf.userN2 := by exact_mod_cast n2
  have L1 : 0 < lf.userL1 := by rw [hL1]; exact mul_pos hp.2.1 hp.1
  have d0 : 0 < lf.userDx := by rw [hdx]; exact div_pos L1 q1
  have hnd : (lf.userN1 : ℝ) * lf.userDx = lf.userL1 := by rw [hdx]; field_simp
  have ht' : kTol < 2 * Real.pi / (lf.userN1 * lf.userDx) := by rw [hnd]; exact ht
  have hk := k1Pos_eq (n := lf.userN1) d0 h0.le ht'
  set S : Fin 2 → ℝ → ℝ := fun c => spectrumAt
    (fun k : Box lf.userN1 lf.userN2 1 => ‖fftn (fun x : Box lf.userN1 lf.userN2 1 =>
      ((Spec.pick c (u1, u2)).entry x.1.val x.2.1.val : ℂ)) k‖ ^ 2) lf.userDx
    (lf.userL1 / (((lf.userN1 : ℝ) * lf.userN2) ^ 2 * (2 * Real.pi))) kTol with hS
  refine ⟨(u1, u2), fun c => (k1Pos lf.userN1 lf.userDx kTol).map (S c), ⟨_, hgen⟩, ?_, ?_, ?_⟩
  · rw [← hnd, ← hk, hgen, hlf]
    simp only [LowFreq.computeSpectrum]
    rw [dif_pos ⟨n1, n2⟩]
    rfl
  · intro c
    rw [hk]
    simp
  intro c a ha1 ha2
  beta_reduce
  rw [hk, List.map_map, List.getD_eq_getElem?_getD, List.getElem?_map, List.getElem?_range (by omega)]
  simp only [Option.map_some, Option.getD_some, Function.comp]
  rw [show (((a - 1 : ℕ) : ℝ) + 1) = (a : ℝ) by exact_mod_cast Nat.sub_add_cancel ha1, hS]
  simp only
  rw [spectrumAt_mul _ _ d0 h0 ht' ha2, line_energy, ZMod.val_cast_of_lt (by omega)]
  have := Real.pi_pos
  field_simp

/-- **C111** Expectation of the estimate of `compute_spectrum` after `generate`, at the wavenumbers below the Nyquist
wavenumber: the mode variances of the computational grid, weighted by Fejér kernels around plus and minus the wavenumber, and
divided by the spacing of the reported wavenumbers. -/
theorem C111_expected {Ω : Type} [MeasurableSpace Ω] {μ : Measure Ω} {cfg : LFConfig} {lf : LowFreq}
    (r : LowFreqRegular cfg lf) (γ : ℕ → Ω → ℝ) (hL2 : ∀ m, MemLp (γ m) 2 μ)
    (hcov : ∀ m n, ∫ ω, γ m ω * γ n ω ∂μ = if m = n then 1 else 0) (pos : ℕ) {kTol : ℝ} (h0 : 0 < kTol)
    (ht : kTol < 2 * Real.pi / lf.userL1) :
    ∃ (ks : List ℝ) (F : Fin 2 → Ω → List ℝ),
      (∀ ω, (lf.generate (fun m => γ m ω) pos).2.1.computeSpectrum kTol = .ok (ks, F 0 ω, F 1 ω)) ∧
      ks = (List.range (lf.userN1 / 2)).map (fun j : ℕ => 2 * Real.pi / lf.userL1 * ((j : ℝ) + 1)) ∧
      ∀ (c : Fin 2) (a : ℕ), 0 < a → 2 * a < lf.userN1 →
        Integrable (fun ω => (F c ω).getD (a - 1) 0) μ ∧
        ∫ ω, (F c ω).getD (a - 1) 0 ∂μ = lf.userL1 / (2 * Real.pi) *
          ∑ p ∈ Finset.range lf.compN1, ∑ q ∈ Finset.range lf.compN2, Spec.modeVariance cfg lf c p q *
            ((Spec.fejer lf.userN1 (Spec.waveNumber lf.compN1 lf.compDx p * lf.compDx - 2 * Real.pi * a / lf.userN1) +
              Spec.fejer lf.userN1 (Spec.waveNumber lf.compN1 lf.compDx p * lf.compDx + 2 * Real.pi * a / lf.userN1)) / 2) := by
  have hg := fun ω => spectrum_value r.pos r.init (fun m => γ m ω) pos h0 ht
  choose U F hu hsp _ hval using hg
  obtain ⟨cc, hcc⟩ := lfInit_computeC r.init
  obtain ⟨lf0, e0, -, -, -, -, hL1, -, hN1, hN2, hdx, -⟩ := lfInit_ok r.pos hcc
  rw [r.init] at e0
  obtain rfl := Except.ok.inj e0
  have n1 : 0 < lf.userN1 := by rw [hN1]; positivity
  have n2 : 0 < lf.userN2 := by rw [hN2]; positivity
  haveI : NeZero lf.userN1 := ⟨n1.ne'⟩
  haveI : NeZero lf.userN2 := ⟨n2.ne'⟩
  have q1 : (0 : ℝ) < lf.userN1 := by exact_mod_cast n1
  have q2 : (0 : ℝ) < lf.userN2 := by exact_mod_cast n2
  have L1 : 0 < lf.userL1 := by rw [hL1]; exact mul_pos r.pos.2.1 r.pos.1
  have d0 : 0 < lf.userDx := by rw [hdx]; exact div_pos L1 q1
  have hnd : (lf.userN1 : ℝ) * lf.userDx = lf.userL1 := by rw [hdx]; field_simp
  refine ⟨_, fun c ω => F ω c, hsp, rfl, ?_⟩
  intro c a ha1 ha2
  have hval := fun ω => hval ω c a ha1 ha2
  simp only [hval]
  have hint : ∀ j ∈ Finset.range lf.userN2, ∀ i ∈ Finset.range lf.userN1, ∀ i' ∈ Finset.range lf.userN1,
      Integrable (fun ω => (Spec.pick c (U ω)).entry i j * (Spec.pick c (U ω)).entry i' j *
        Real.cos (2 * Real.pi * a / lf.userN1 * ((i : ℝ) - i'))) μ := by
    intro j hj i hi i' hi'
    rw [Finset.mem_range] at hj hi hi'
    exact ((pick_memLp r.pos r.init γ hL2 pos hu c hi hj).integrable_mul
      (pick_memLp r.pos r.init γ hL2 pos hu c hi' hj)).mul_const _
  have hintj := fun j hj => integrable_finsetSum (Finset.range lf.userN1) fun i hi =>
    integrable_finsetSum (Finset.range lf.userN1) (hint j hj i hi)
  refine ⟨(integrable_finsetSum _ hintj).const_mul _, ?_⟩
  rw [integral_const_mul, integral_finsetSum _ hintj]
  have hj : ∀ j ∈ Finset.range lf.userN2, ∫ ω, ∑ i ∈ Finset.range lf.userN1, ∑ i' ∈ Finset.range lf.userN1,
          (Spec.pick c (U ω)).entry i j * (Spec.pick c (U ω)).entry i' j *
            Real.cos (2 * Real.pi * a / lf.userN1 * ((i : ℝ) - i')) ∂μ =
      (lf.userN1 : ℝ) ^ 2 * ∑ p ∈ Finset.range lf.compN1, ∑ q ∈ Finset.range lf.compN2, Spec.modeVariance cfg lf c p q *
            ((Spec.fejer lf.userN1 (Spec.waveNumber lf.compN1 lf.compDx p * lf.compDx - 2 * Real.pi * a / lf.userN1) +
              Spec.fejer lf.userN1 (Spec.waveNumber lf.compN1 lf.compDx p * lf.compDx + 2 * Real.pi * a / lf.userN1)) / 2) := by
    intro j hj
    rw [integral_finsetSum _ fun i hi => integrable_finsetSum _ (hint j hj i hi), Finset.mul_sum]
    have : ∀ i ∈ Finset.range lf.userN1, ∫ ω, ∑ i' ∈ Finset.range lf.userN1,
          (Spec.pick c (U ω)).entry i j * (Spec.pick c (U ω)).entry i' j *
            Real.cos (2 * Real.pi * a / lf.userN1 * ((i : ℝ) - i')) ∂μ =
        ∑ i' ∈ Finset.range lf.userN1, ∑ p ∈ Finset.range lf.compN1, ∑ q ∈ Finset.range lf.compN2,
          Spec.modeVariance cfg lf c p q * (Real.cos (Spec.waveNumber lf.compN1 lf.compDx p * lf.compDx * ((i : ℝ) - i')) *
            Real.cos (2 * Real.pi * a / lf.userN1 * ((i : ℝ) - i'))) := by
      intro i hi
      rw [integral_finsetSum _ (hint j hj i hi)]
      refine Finset.sum_congr rfl fun i' hi' => ?_
      rw [integral_mul_const, C111_covariance r γ hL2 hcov pos hu c (Finset.mem_range.1 hi) (Finset.mem_range.1 hi')
        (Finset.mem_range.1 hj) (Finset.mem_range.1 hj), Finset.sum_mul]
      refine Finset.sum_congr rfl fun p _ => ?_
      rw [Finset.sum_mul]
      refine Finset.sum_congr rfl fun q _ => ?_
      rw [sub_self, mul_zero, add_zero]
      ring
    rw [Finset.sum_congr rfl this]
    have swap : ∀ g : ℕ → ℕ → ℕ → ℕ → ℝ, ∑ i ∈ Finset.range lf.userN1, ∑ i' ∈ Finset.range lf.userN1,
        ∑ p ∈ Finset.range lf.compN1, ∑ q ∈ Finset.range lf.compN2, g i i' p q =
        ∑ p ∈ Finset.range lf.compN1, ∑ q ∈ Finset.range lf.compN2, ∑ i ∈ Finset.range lf.userN1,
          ∑ i' ∈ Finset.range lf.userN1, g i i' p q := by
      intro g
      calc _ = ∑ i ∈ Finset.range lf.userN1, ∑ p ∈ Finset.range lf.compN1, ∑ i' ∈ Finset.range lf.userN1,
              ∑ q ∈ Finset.range lf.compN2, g i i' p q := Finset.sum_congr rfl fun i _ => Finset.sum_comm
        _ = ∑ p ∈ Finset.range lf.compN1, ∑ i ∈ Finset.range lf.userN1, ∑ i' ∈ Finset.range lf.userN1,
              ∑ q ∈ Finset.range lf.compN2, g i i' p q := Finset.sum_comm
        _ = ∑ p ∈ Finset.range lf.compN1, ∑ i ∈ Finset.range lf.userN1, ∑ q ∈ Finset.range lf.compN2,
              ∑ i' ∈ Finset.range lf.userN1, g i i' p q :=
            Finset.sum_congr rfl fun p _ => Finset.sum_congr rfl fun i _ => Finset.sum_comm
        _ = _ := Finset.sum_congr rfl fun p _ => Finset.sum_comm
    rw [swap]
    refine Finset.sum_congr rfl fun p _ => ?_
    rw [Finset.mul_sum]
    refine Finset.sum_congr rfl fun q _ => ?_
    simp only [← Finset.mul_sum]
    rw [fejer_sum_mul _ n1]
    ring
  rw [Finset.sum_congr rfl hj, Finset.sum_const, Finset.card_range, nsmul_eq_mul]
  have := Real.pi_pos
  generalize (∑ p ∈ Finset.range lf.compN1, ∑ q ∈ Finset.range lf.compN2, Spec.modeVariance cfg lf c p q * _) = T
  field_simp

theorem fejer_grid {n : ℕ} [NeZero n] (t : ℤ) : Spec.fejer n (2 * Real.pi * t / n) = if (t : ZMod n) = 0 then 1 else 0 := by
  have hn : (n : ℝ) ≠ 0 := by exact_mod_cast NeZero.ne n
  have hn' : (n : ℂ) ≠ 0 := by exact_mod_cast hn
  have h : (∑ i ∈ Finset.range n, Complex.exp (((2 * Real.pi * t / n * i : ℝ) : ℂ) * Complex.I)) =
      if (t : ZMod n) = 0 then (n : ℂ) else 0 := by
    rw [← sum_stdAddChar]
    have : ∀ g : ℕ → ℂ, ∑ i ∈ Finset.range n, g i = ∑ x : ZMod n, g x.val := by
      intro g
      apply Complex.ext
      · rw [Complex.re_sum, Complex.re_sum]; exact range_eq_zmod n _
      · rw [Complex.im_sum, Complex.im_sum]; exact range_eq_zmod n _
    rw [this]
    refine Finset.sum_congr rfl fun x _ => ?_
    have e : x * (t : ZMod n) = (((x.val : ℤ) * t : ℤ) : ZMod n) := by
      push_cast
      rw [ZMod.natCast_zmod_val]
    rw [e, ZMod.stdAddChar_coe]
    congr 1
    push_cast
    field_simp
  have hre := congrArg Complex.re h
  have him := congrArg Complex.im h
  rw [Complex.re_sum] at hre
  rw [Complex.im_sum] at him
  simp only [Complex.exp_ofReal_mul_I_re] at hre
  simp only [Complex.exp_ofReal_mul_I_im] at him
  unfold Spec.fejer
  rw [hre, him]
  split_ifs
  · simp [hn]
  · simp

/-- The estimate for a field that was not cropped along the first axis. -/
theorem expected_uncropped {cfg : LFConfig} {lf : LowFreq} (r : LowFreqRegular cfg lf) (hn : lf.compN1 = lf.userN1)
    (c : Fin 2) {a : ℕ} (ha : 0 < a) (ha2 : 2 * a < lf.userN1) :
    ∑ p ∈ Finset.range lf.compN1, ∑ q ∈ Finset.range lf.compN2, Spec.modeVariance cfg lf c p q *
      ((Spec.fejer lf.userN1 (Spec.waveNumber lf.compN1 lf.compDx p * lf.compDx - 2 * Real.pi * a / lf.userN1) +
        Spec.fejer lf.userN1 (Spec.waveNumber lf.compN1 lf.compDx p * lf.compDx + 2 * Real.pi * a / lf.userN1)) / 2) =
    ∑ q ∈ Finset.range lf.compN2, Spec.modeVariance cfg lf c a q := by
  rw [← hn] at ha2 ⊢
  set n := lf.compN1 with hN
  haveI : NeZero n := ⟨by omega⟩
  have q0 : (n : ℝ) ≠ 0 := by exact_mod_cast NeZero.ne n
  have hd0 : lf.compDx * lf.compDy ≠ 0 := (lt_of_lt_of_le (by norm_num) r.cell).ne'
  have d1 := left_ne_zero_of_mul hd0
  have hw : ∀ p, Spec.waveNumber n lf.compDx p * lf.compDx = 2 * Real.pi * signedIdx n p / n := by
    intro p
    rw [waveNumber_signed]
    field_simp
  have hz : ∀ p, ((signedIdx n p : ℤ) : ZMod n) = (p : ZMod n) := by
    intro p
    unfold signedIdx
    split_ifs <;> simp
  have f1 : ∀ p < n, Spec.fejer n (Spec.waveNumber n lf.compDx p * lf.compDx - 2 * Real.pi * a / n) = if p = a then 1 else 0 := by
    intro p hp
    rw [hw, show 2 * Real.pi * (signedIdx n p : ℝ) / n - 2 * Real.pi * a / n =
      2 * Real.pi * ((signedIdx n p - (a : ℤ) : ℤ) : ℝ) / n by push_cast; ring, fejer_grid]
    refine if_congr ?_ rfl rfl
    rw [Int.cast_sub, hz, Int.cast_natCast, sub_eq_zero, ZMod.natCast_eq_natCast_iff', Nat.mod_eq_of_lt hp,
      Nat.mod_eq_of_lt (by omega)]
  have f2 : ∀ p < n, Spec.fejer n (Spec.waveNumber n lf.compDx p * lf.compDx + 2 * Real.pi * a / n) = if p = n - a then 1 else 0 := by
    intro p hp
    rw [hw, show 2 * Real.pi * (signedIdx n p : ℝ) / n + 2 * Real.pi * a / n =
      2 * Real.pi * ((signedIdx n p + (a : ℤ) : ℤ) : ℝ) / n by push_cast; ring, fejer_grid]
    refine if_congr ?_ rfl rfl
    rw [Int.cast_add, hz, Int.cast_natCast, ← Nat.cast_add, ZMod.natCast_eq_zero_iff]
    constructor
    · rintro ⟨t, ht⟩
      have ht1 : t = 1 := by
        have h1 : t < 2 := by
          by_contra hcon
          have : n * 2 ≤ n * t := Nat.mul_le_mul_left n (by omega)
          omega
        have h2 : t ≠ 0 := by
          rintro rfl
          omega
        omega
      rw [ht1] at ht
      omega
    · rintro rfl
      exact ⟨1, by omega⟩
  have hodd : Spec.waveNumber n lf.compDx (n - a) = -Spec.waveNumber n lf.compDx a := by
    rw [waveNumber_signed, waveNumber_signed]
    have : signedIdx n (n - a) = -signedIdx n a := by
      unfold signedIdx
      rw [if_neg (by omega), if_pos ha2]
      omega
    rw [this]
    push_cast
    ring
  have hsym : ∀ q, Spec.modeVariance cfg lf c (n - a) q = Spec.modeVariance cfg lf c a q := by
    intro q
    unfold Spec.modeVariance
    rw [← hN, hodd, lfIntegrand_even _ _ _ _ _ (neg_sq _) rfl]
    refine if_congr ?_ rfl rfl
    clear * - ha ha2
    fin_cases c
    · exact Iff.rfl
    · change 2 * (n - a) = n ↔ 2 * a = n
      omega
  have e : ∀ p ∈ Finset.range n, ∑ q ∈ Finset.range lf.compN2, Spec.modeVariance cfg lf c p q *
      ((Spec.fejer n (Spec.waveNumber n lf.compDx p * lf.compDx - 2 * Real.pi * a / n) +
        Spec.fejer n (Spec.waveNumber n lf.compDx p * lf.compDx + 2 * Real.pi * a / n)) / 2) =
      (if p = a then (∑ q ∈ Finset.range lf.compN2, Spec.modeVariance cfg lf c p q) / 2 else 0) +
        if p = n - a then (∑ q ∈ Finset.range lf.compN2, Spec.modeVariance cfg lf c p q) / 2 else 0 := by
    intro p hp
    rw [f1 p (Finset.mem_range.1 hp), f2 p (Finset.mem_range.1 hp), ← Finset.sum_mul]
    split_ifs <;> ring
  rw [Finset.sum_congr rfl e, Finset.sum_add_distrib, Finset.sum_ite_eq', Finset.sum_ite_eq',
    if_pos (Finset.mem_range.2 (by omega)), if_pos (Finset.mem_range.2 (by omega)), Finset.sum_congr rfl fun q _ => hsym q]
  ring

/-- **C111** Without cropping along the first axis the estimate is unbiased for the wavenumber grid: at every reported
wavenumber below the Nyquist wavenumber its expectation is the Riemann sum over `k2` of the analytical density. -/
theorem C111_uncropped {Ω : Type} [MeasurableSpace Ω] {μ : Measure Ω} {cfg : LFConfig} {lf : LowFreq}
    (r : LowFreqRegular cfg lf) (hn : lf.compN1 = lf.userN1) (hd : lf.compDx = lf.userDx) (γ : ℕ → Ω → ℝ)
    (hL2 : ∀ m, MemLp (γ m) 2 μ) (hcov : ∀ m n, ∫ ω, γ m ω * γ n ω ∂μ = if m = n then 1 else 0) (pos : ℕ) {kTol : ℝ}
    (h0 : 0 < kTol) (ht : kTol < 2 * Real.pi / lf.userL1) :
    ∃ (ks : List ℝ) (F : Fin 2 → Ω → List ℝ),
      (∀ ω, (lf.generate (fun m => γ m ω) pos).2.1.computeSpectrum kTol = .ok (ks, F 0 ω, F 1 ω)) ∧
      ∀ (c : Fin 2) (a : ℕ), 0 < a → 2 * a < lf.userN1 →
        ks.getD (a - 1) 0 = 2 * Real.pi / lf.userL1 * a ∧
        ∫ ω, (F c ω).getD (a - 1) 0 ∂μ = 2 * Real.pi / lf.compL2 * ∑ q ∈ Finset.range lf.compN2,
          if c = 0 ∧ 2 * q = lf.compN2 then 0 else
            lfIntegrand lf.c cfg.L2d cfg.psi cfg.zi c (Spec.waveNumber lf.compN2 lf.compDy q) (2 * Real.pi / lf.userL1 * a) := by
  obtain ⟨ks, F, hF, hks, hE⟩ := C111_expected r γ hL2 hcov pos h0 ht
  refine ⟨ks, F, hF, fun c a ha ha2 => ⟨?_, ?_⟩⟩
  · rw [hks, List.getD_eq_getElem?_getD, List.getElem?_map, List.getElem?_range (by omega)]
    simp only [Option.map_some, Option.getD_some]
    rw [show (((a - 1 : ℕ) : ℝ) + 1) = (a : ℝ) by exact_mod_cast Nat.sub_add_cancel ha]
  obtain ⟨-, -, ⟨l1, -⟩, -⟩ := C67_grid r.pos r.init
  obtain ⟨cc, hcc⟩ := lfInit_computeC r.init
  obtain ⟨lf0, e0, -, -, -, -, hL1, -, hN1, -, hdx, -⟩ := lfInit_ok r.pos hcc
  rw [r.init] at e0
  obtain rfl := Except.ok.inj e0
  have q1 : (lf.userN1 : ℝ) ≠ 0 := by rw [hN1]; positivity
  have L1 : 0 < lf.userL1 := by rw [hL1]; exact mul_pos r.pos.2.1 r.pos.1
  have hL : lf.compL1 = lf.userL1 := by rw [l1, hn, hd, hdx]; field_simp
  have hw : Spec.waveNumber lf.compN1 lf.compDx a = 2 * Real.pi / lf.userL1 * a := by
    rw [waveNumber_signed, ← l1, hL]
    congr 1
    unfold signedIdx
    rw [if_pos (by omega)]
    rfl
  rw [(hE c a ha ha2).2, expected_uncropped r hn c ha ha2, Finset.mul_sum, Finset.mul_sum]
  refine Finset.sum_congr rfl fun q _ => ?_
  have hm : Spec.missing c lf.compN1 lf.compN2 a q ↔ c = 0 ∧ 2 * q = lf.compN2 := by
    clear * - ha2 hn
    fin_cases c
    · change 2 * q = lf.compN2 ↔ _
      simp
    · change 2 * a = lf.compN1 ↔ _
      simp
      omega
  have := Real.pi_pos
  unfold Spec.modeVariance
  rw [hw, hL]
  by_cases hc : c = 0 ∧ 2 * q = lf.compN2
  · rw [if_pos hc, if_pos (hm.2 hc)]; ring
  · rw [if_neg hc, if_neg (fun h => hc (hm.1 h))]
    field_simp

theorem line_sum (f : ℝ → ℝ) (n : ℕ) (d : ℝ) (P : ℕ → Prop) :
    ∃ I : Finset ℤ, (∀ i : ℤ, (∃ a < n, ¬ P a ∧ signedIdx n a = i) → i ∈ I) ∧
      ∑ a ∈ Finset.range n, (if P a then 0 else f (Spec.waveNumber n d a)) = ∑ i ∈ I, f (2 * Real.pi / (n * d) * i) := by
  set T := (Finset.range n).filter fun a => ¬ P a with hT
  refine ⟨T.image (signedIdx n), ?_, ?_⟩
  · rintro i ⟨a, ha, hP, e⟩
    rw [Finset.mem_image]
    exact ⟨a, by simp [hT, ha, hP], e⟩
  · rw [Finset.sum_image]
    · rw [hT, Finset.sum_filter]
      refine Finset.sum_congr rfl fun a _ => ?_
      rw [waveNumber_signed]
      by_cases h : P a
      · rw [if_pos h, if_neg (not_not.2 h)]
      · rw [if_neg h, if_pos h]
    · intro p hp q hq h
      simp only [hT, Finset.coe_filter, Finset.mem_range, Set.mem_setOf_eq] at hp hq
      exact signedIdx_inj hp.1 hq.1 h

theorem density_line {L : ℝ} (hL : 0 < L) (c z : ℝ) {psi : ℝ} (h0 : 0 < psi) (h1 : psi < Real.pi / 2) (i : Fin 2) {k1 : ℝ}
    (hk : 0 < k1) : Continuous (fun k2 => Spec.lowFreqDensity c L psi z i k1 k2) ∧
      ∃ C, ∀ k2, |Spec.lowFreqDensity c L psi z i k1 k2| ≤ C * (1 + ‖k2‖) ^ (-(8 / 3) : ℝ) := by
  constructor
  · rw [continuous_iff_continuousAt]
    intro k2
    have hne : (k1, k2) ≠ (0 : ℝ × ℝ) := fun h => hk.ne' (congrArg Prod.fst h)
    exact ContinuousAt.comp (f := fun k2 => (k1, k2)) (density_continuousAt hL c z psi i hne) (by fun_prop)
  · obtain ⟨C, hC⟩ := density_bound hL c z h0 h1 i
    have hC0 : 0 ≤ C := by
      have := (abs_nonneg _).trans (hC 0)
      simpa using this
    refine ⟨C, fun k2 => (hC (k1, k2)).trans ?_⟩
    have : ‖k2‖ ≤ ‖((k1, k2) : ℝ × ℝ)‖ := norm_snd_le (k1, k2)
    have := Real.rpow_le_rpow_of_nonpos (by positivity) (add_le_add_right this 1) (by norm_num : (-(8 / 3) : ℝ) ≤ 0)
    gcongr

/-- The line of the density that `analytical_spectrum` integrates, at a wavenumber where its cut-offs are inactive. -/
theorem integrand_line {cfg : LFConfig} {lf : LowFreq} (r : LowFreqRegular cfg lf) {k1 : ℝ} (hL : lf.compL1 = lf.userL1)
    (hk : 2 * Real.pi / lf.userL1 ≤ k1) (h0 : 0 ≤ 2 * Real.pi / lf.userL1) (c : ℝ) (i : Fin 2) (k2 : ℝ) :
    lfIntegrand c cfg.L2d cfg.psi cfg.zi i k2 k1 = Spec.lowFreqDensity c cfg.L2d cfg.psi cfg.zi i k1 k2 := by
  have hk1 := r.k1
  rw [hL, mul_pow] at hk1
  have hsq : (2 * Real.pi / lf.userL1) ^ 2 ≤ k1 ^ 2 := by gcongr
  have hc2 := Real.sin_sq_add_cos_sq cfg.psi
  have s2 := sq_nonneg (Real.sin cfg.psi)
  have s3 := sq_nonneg (Real.cos cfg.psi)
  have w2 := sq_nonneg k2
  have w3 := sq_nonneg (k2 * Real.sin cfg.psi)
  have w4 : (2 * Real.pi / lf.userL1) ^ 2 * Real.cos cfg.psi ^ 2 ≤ k1 ^ 2 * Real.cos cfg.psi ^ 2 := by gcongr
  have w5 : k1 ^ 2 * Real.cos cfg.psi ^ 2 ≤ k1 ^ 2 * 1 := by gcongr; linarith
  obtain ⟨d0, d1, -⟩ := C74_documented (c := c) (z := cfg.zi) (psi := cfg.psi) (k1 := k1) (k2 := k2) r.pos.1 r.cut
    (by rw [mul_pow k1]; norm_num at hk1 ⊢; linarith) (by norm_num at hk1 ⊢; linarith)
  clear * - d0 d1
  fin_cases i
  · exact d0
  · exact d1

/-- **C111** At a fixed wavenumber the expected estimate approaches the documented spectrum, and the value returned by
`analytical_spectrum`, when the domain grows across, the grid is refined and the integration limit grows (for fields that are
not cropped along the first axis, as long as the cut-offs of the code stay inactive). -/
theorem C111_limit {sigma2 L z c : ℝ} (hL : 0 < L) (hc : computeC sigma2 L z = .ok c) {psi : ℝ} (h0 : 0 < psi)
    (h1 : psi < Real.pi / 2) {k1 : ℝ} (hk : 0 < k1) (i : Fin 2) {ε : ℝ} (hε : 0 < ε) :
    ∃ len > 0, ∃ d > 0, ∃ H > 0, ∀ (cfg : LFConfig) (lf : LowFreq), LowFreqRegular cfg lf → cfg.sigma2 = sigma2 →
      cfg.L2d = L → cfg.psi = psi → cfg.zi = z → lf.compN1 = lf.userN1 → lf.compDx = lf.userDx → len ≤ lf.userL2 →
      min lf.userDx lf.userDy ≤ d → ∀ a : ℕ, 2 * a < lf.userN1 → k1 = 2 * Real.pi / lf.userL1 * a →
      ∀ kTol : ℝ, 0 < kTol → kTol < 2 * Real.pi / lf.userL1 →
      ∀ (Ω : Type) (_ : MeasurableSpace Ω) (μ : Measure Ω) (γ : ℕ → Ω → ℝ), (∀ m, MemLp (γ m) 2 μ) →
      (∀ m n, ∫ ω, γ m ω * γ n ω ∂μ = if m = n then 1 else 0) → ∀ pos : ℕ,
      ∃ (ks : List ℝ) (F : Fin 2 → Ω → List ℝ),
        (∀ ω, (lf.generate (fun m => γ m ω) pos).2.1.computeSpectrum kTol = .ok (ks, F 0 ω, F 1 ω)) ∧
        ks.getD (a - 1) 0 = k1 ∧
        |∫ ω, (F i ω).getD (a - 1) 0 ∂μ - ∫ k2, Spec.lowFreqDensity c L psi z i k1 k2| ≤ ε ∧
        ∀ k2limit, H ≤ |k2limit| → |∫ ω, (F i ω).getD (a - 1) 0 ∂μ - lf.analyticalSpectrum k2limit i k1| ≤ ε := by
  have hpi := Real.pi_pos
  obtain ⟨hcont, C, hC⟩ := density_line hL c z h0 h1 i hk
  obtain ⟨R, hR, d, hd, hRL⟩ := riemann_line hcont (by norm_num) hC (half_pos hε)
  obtain ⟨-, H, hH, hIL⟩ := interval_line hcont (by norm_num) hC (half_pos hε)
  refine ⟨2 * Real.pi / d, by positivity, Real.pi / (2 * R), by positivity, H, hH, ?_⟩
  intro cfg lf r es eL ep ez hn hdx hlen hmin a ha2 hka kTol t0 t1 Ω _ μ γ hL2 hcov pos
  subst es eL ep ez
  obtain ⟨ks, F, hF, hE⟩ := C111_uncropped r hn hdx γ hL2 hcov pos t0 t1
  obtain ⟨⟨-, c1, -, c2⟩, ⟨x1, y1⟩, ⟨l1, l2⟩, ⟨m1, -⟩, ⟨m2, -⟩, -⟩ := C67_grid r.pos r.init
  obtain ⟨lf0, e0, hcfg, hlc, -, -, hL1, -, hN1, -, hdx', -⟩ := lfInit_ok r.pos hc
  rw [r.init] at e0
  obtain rfl := Except.ok.inj e0
  have q1 : (lf.userN1 : ℝ) ≠ 0 := by rw [hN1]; positivity
  have L1 : 0 < lf.userL1 := by rw [hL1]; exact mul_pos r.pos.2.1 r.pos.1
  have hLL : lf.compL1 = lf.userL1 := by rw [l1, hn, hdx, hdx']; field_simp
  have w0 : 0 < 2 * Real.pi / lf.userL1 := by positivity
  have ha : 0 < a := by
    rcases Nat.eq_zero_or_pos a with h | h
    · rw [h] at hka; simp at hka; exact absurd hka hk.ne'
    · exact h
  have hwk : 2 * Real.pi / lf.userL1 ≤ k1 := by
    have : (1 : ℝ) ≤ a := by exact_mod_cast ha
    rw [hka]
    nlinarith
  obtain ⟨hks, hEx⟩ := hE i a ha ha2
  have hden := integrand_line r hLL hwk w0.le c i
  -- the Riemann sum
  have p2 : 0 < lf.compL2 := lt_of_lt_of_le (by positivity) (hlen.trans ((le_max_left _ _).trans m2))
  have s2 : 2 * Real.pi / lf.compL2 ≤ d := by
    have := hlen.trans ((le_max_left _ _).trans m2)
    rw [div_le_iff₀ hd] at this
    rw [div_le_iff₀ p2]
    linarith
  have dyp : 0 < lf.compDy := by
    have hn0 : (0 : ℝ) ≤ lf.compN2 := Nat.cast_nonneg _
    by_contra q
    push Not at q
    nlinarith
  have hin : ∀ q : ℤ, |2 * Real.pi / lf.compL2 * q| ≤ R → 2 * |q| < lf.compN2 := by
    intro q hq
    rw [abs_mul, abs_of_pos (by positivity), div_mul_eq_mul_div, div_le_iff₀ p2] at hq
    have hdR : lf.compDy ≤ Real.pi / (2 * R) := by rw [y1]; exact hmin
    rw [le_div_iff₀ (by positivity)] at hdR
    have hnn : (0 : ℝ) < lf.compN2 := by exact_mod_cast (by omega : 0 < lf.compN2)
    have h4 : 2 * Real.pi * |(q : ℝ)| ≤ lf.compN2 * (Real.pi / 2) := by
      calc _ ≤ R * lf.compL2 := hq
        _ = lf.compN2 * (R * lf.compDy) := by rw [l2]; ring
        _ ≤ _ := by gcongr; linarith
    have h5 : 2 * |(q : ℝ)| < lf.compN2 := by nlinarith
    have : ((2 * |q| : ℤ) : ℝ) < ((lf.compN2 : ℤ) : ℝ) := by push_cast; exact h5
    exact_mod_cast this
  obtain ⟨I, hI, hsum⟩ := line_sum (fun k2 => Spec.lowFreqDensity c cfg.L2d cfg.psi cfg.zi i k1 k2) lf.compN2 lf.compDy
    (fun q => i = 0 ∧ 2 * q = lf.compN2)
  have hexp : ∫ ω, (F i ω).getD (a - 1) 0 ∂μ = 2 * Real.pi / lf.compL2 *
      ∑ n ∈ I, Spec.lowFreqDensity c cfg.L2d cfg.psi cfg.zi i k1 (2 * Real.pi / lf.compL2 * n) := by
    rw [hEx, ← hka, hlc]
    simp only [hden]
    rw [l2, ← hsum]
    congr 1
    refine Finset.sum_congr rfl fun q _ => ?_
    by_cases hq : i = 0 ∧ 2 * q = lf.compN2
    · rw [if_pos hq, if_pos hq]
    · rw [if_neg hq, if_neg hq]
  have hmain : |∫ ω, (F i ω).getD (a - 1) 0 ∂μ - ∫ k2, Spec.lowFreqDensity c cfg.L2d cfg.psi cfg.zi i k1 k2| ≤ ε / 2 := by
    rw [hexp]
    refine hRL _ (by positivity) s2 I fun n hn' => ?_
    obtain ⟨b, hb, hb2, eb⟩ := signedIdx_surj (hin n hn')
    exact hI n ⟨b, hb, fun q => hb2 q.2, eb⟩
  refine ⟨ks, F, hF, by rw [hks, hka], hmain.trans (by linarith), fun k2limit hlim => ?_⟩
  have hno : ¬ |k1| < 1e-15 := by
    rw [abs_of_pos hk]
    push Not
    have hk1 := r.k1
    rw [hLL, mul_pow] at hk1
    have hc2 := Real.sin_sq_add_cos_sq cfg.psi
    have s2 := sq_nonneg (Real.sin cfg.psi)
    have e1 : (2 * Real.pi / lf.userL1) ^ 2 * Real.cos cfg.psi ^ 2 ≤ (2 * Real.pi / lf.userL1) ^ 2 * 1 := by gcongr; linarith
    have e2 : (1e-15 : ℝ) ^ 2 ≤ (2 * Real.pi / lf.userL1) ^ 2 := by
      norm_num at hk1 ⊢
      linarith
    exact (le_abs_self _).trans ((abs_le_of_sq_le_sq e2 w0.le).trans hwk)
  have han : lf.analyticalSpectrum k2limit i k1 =
      ∫ k2 in (-|k2limit|)..|k2limit|, Spec.lowFreqDensity c cfg.L2d cfg.psi cfg.zi i k1 k2 := by
    unfold LowFreq.analyticalSpectrum
    simp only
    rw [if_neg hno, hcfg, hlc]
    simp only [hden]
  have h3 := hIL |k2limit| hlim
  rw [han, show ε = ε / 2 + ε / 2 by ring]
  refine (abs_sub_le _ (∫ k2, Spec.lowFreqDensity c cfg.L2d cfg.psi cfg.zi i k1 k2) _).trans (add_le_add hmain ?_)
  rw [abs_sub_comm]
  exact h3

/-- The base configuration of the studies with factor 5 is regular and is not cropped. -/
example : ∃ lf, LowFreqRegular (domainConfig 5) lf ∧ lf.compN1 = lf.userN1 ∧ lf.compDx = lf.userDx := by
  obtain ⟨c, hc⟩ := study_computeC
  have hp : (domainConfig 5).Pos := by norm_num [LFConfig.Pos, domainConfig]
  obtain ⟨lf, h, -, -, -, -, L1, L2, N1, N2, ex, ey, ⟨ev1, -⟩, ⟨dx, dy⟩, -⟩ := lfInit_ok hp hc
  obtain ⟨-, -, ⟨l1, l2⟩, ⟨a1, a2⟩, ⟨b1, b2⟩, -⟩ := C67_grid hp h
  have ux : lf.userDx = 75000 / 512 := by rw [ex, L1, N1]; norm_num [domainConfig]
  have uy : lf.userDy = 75000 / 512 := by rw [ey, L2, N2]; norm_num [domainConfig]
  rw [ux, uy, min_self] at dx dy
  have e1 : lf.userL1 = 75000 := by rw [L1]; norm_num [domainConfig]
  have e2 : lf.userL2 = 75000 := by rw [L2]; norm_num [domainConfig]
  rw [dx, e1] at a2
  rw [dy, e2] at b2
  rw [e1] at a1
  rw [e2] at b1
  norm_num [domainConfig] at a1 a2 b1 b2
  have hpi := Real.two_le_pi
  have hcut : ∀ L : ℝ, 75000 ≤ L → L < 76000 → 1e-20 ≤ (2 * Real.pi / L * (√2 / 2)) ^ 2 := by
    intro L l1 l2
    rw [mul_pow, div_pow √2, Real.sq_sqrt (by norm_num)]
    have : (4 / 76000 : ℝ) ≤ 2 * Real.pi / L := by
      rw [div_le_div_iff₀ (by norm_num) (by linarith)]
      nlinarith
    nlinarith
  refine ⟨lf, ⟨hp, h, by norm_num [domainConfig], ?_, by rw [dx, dy]; norm_num, ?_, ?_⟩, ?_, by rw [dx, ux]⟩
  · have : (1 / (domainConfig 5).L2d ^ 2) = (1 / 225000000 : ℝ) := by norm_num [domainConfig]
    rw [this]
    calc (1e-30 : ℝ) ≤ (1 / 225000000 : ℝ) ^ (3 : ℝ) := by norm_num
      _ ≤ (1 / 225000000 : ℝ) ^ (7 / 3 : ℝ) :=
        Real.rpow_le_rpow_of_exponent_ge (by norm_num) (by norm_num) (by norm_num)
  · rw [show (domainConfig 5).psi = Real.pi / 4 from rfl, Real.cos_pi_div_four]
    exact hcut _ (by linarith) (by linarith)
  · rw [show (domainConfig 5).psi = Real.pi / 4 from rfl, Real.sin_pi_div_four]
    exact hcut _ (by linarith) (by linarith)
  · have hN : lf.userN1 = 512 := by rw [N1]; norm_num [domainConfig]
    rw [hN]
    have g1 : (lf.compN1 : ℝ) < 514 := by
      rw [l1, dx] at a2
      linarith
    have g2 : (512 : ℝ) ≤ lf.compN1 := by
      rw [l1, dx] at a1
      linarith
    have g3 : lf.compN1 < 514 := by exact_mod_cast g1
    have g4 : 512 ≤ lf.compN1 := by exact_mod_cast g2
    obtain ⟨m, hm⟩ := ev1
    omega

end
end Verif
