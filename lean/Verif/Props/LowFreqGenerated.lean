import Verif.Props.LowFreqStudy

/-!
# What `generate` stores and returns: incompressibility, mean, stationarity and variance (C70, C82)

The statements of `LowFreqField` and `LowFreqEstimate` speak of the real fields as functions of a noise array.  Here they are
carried over to the two arrays an object keeps as `u1_full`, `u2_full` and to the pair a user receives.
-/

namespace Verif

noncomputable section
open Classical MeasureTheory

/-- The two-dimensional discrete Fourier transform of the entries of an array, written out. -/
def Spec.planeDft (n1 n2 : ℕ) (f : ℕ → ℕ → ℝ) (a b : ℕ) : ℂ :=
  ∑ i ∈ Finset.range n1, ∑ j ∈ Finset.range n2,
    (f i j : ℂ) * Complex.exp (-(2 * Real.pi * Complex.I * (a * i / n1 + b * j / n2)))

/-- The wavenumber of index `a` on `n` points at distance `d`: the upper half of the indices stands for negative
wavenumbers. -/
def Spec.waveNumber (n : ℕ) (d : ℝ) (a : ℕ) : ℝ :=
  2 * Real.pi * (if 2 * a < n then (a : ℝ) else (a : ℝ) - n) / (n * d)

theorem zmod_val_cast {n a : ℕ} [NeZero n] (h : a < n) : ((a : ℕ) : ZMod n).val = a := by
  rw [ZMod.val_natCast, Nat.mod_eq_of_lt h]

theorem waveNumber_eq {n a : ℕ} [NeZero n] (d : ℝ) (h : a < n) :
    Spec.waveNumber n d a = lfFreq n d ((a : ℕ) : ZMod n) := by
  unfold Spec.waveNumber lfFreq fftIdx
  rw [zmod_val_cast h]
  by_cases q : 2 * a < n
  · simp only [q, if_true]; push_cast; ring
  · simp only [q, if_false]; push_cast; ring

theorem range_eq_zmod_complex (n : ℕ) [NeZero n] (f : ℕ → ℂ) : ∑ i ∈ Finset.range n, f i = ∑ x : ZMod n, f x.val := by
  obtain ⟨m, rfl⟩ := Nat.exists_eq_succ_of_ne_zero (NeZero.ne n)
  rw [Finset.sum_range]
  rfl

theorem stdAddChar_neg_mul {n : ℕ} [NeZero n] (a : ℕ) (x : ZMod n) :
    (ZMod.stdAddChar (-((a : ℕ) : ZMod n) * x) : ℂ) = Complex.exp (-(2 * Real.pi * Complex.I * (a * x.val / n))) := by
  have hx : -((a : ℕ) : ZMod n) * x = ((-((a : ℤ) * (x.val : ℤ)) : ℤ) : ZMod n) := by
    push_cast
    rw [ZMod.natCast_zmod_val]
    ring
  rw [hx, ZMod.stdAddChar_coe]
  congr 1
  push_cast
  ring

theorem sum_zmod_one (f : ZMod 1 → ℂ) : ∑ z, f z = f 0 :=
  Fintype.sum_eq_single 0 fun z h => (h (Subsingleton.elim z 0)).elim

theorem planeDft_eq {n1 n2 : ℕ} [NeZero n1] [NeZero n2] (F : Box n1 n2 1 → ℝ) (f : ℕ → ℕ → ℝ)
    (hf : ∀ i < n1, ∀ j < n2, f i j = F (i, j, 0)) (a b : ℕ) :
    Spec.planeDft n1 n2 f a b = fftn (fun x => (F x : ℂ)) ((a : ℕ), (b : ℕ), 0) := by
  unfold Spec.planeDft fftn
  rw [range_eq_zmod_complex, Fintype.sum_prod_type]
  refine Finset.sum_congr rfl fun x _ => ?_
  rw [range_eq_zmod_complex, Fintype.sum_prod_type]
  refine Finset.sum_congr rfl fun y _ => ?_
  rw [sum_zmod_one, hf _ (ZMod.val_lt _) _ (ZMod.val_lt _), ZMod.natCast_zmod_val, ZMod.natCast_zmod_val]
  congr 1
  unfold wave
  simp only [Prod.fst_neg, Prod.snd_neg]
  rw [stdAddChar_neg_mul, stdAddChar_neg_mul, mul_zero, AddChar.map_zero_eq_one, mul_one, ← Complex.exp_add]
  congr 1
  ring

/-! ### C70 -/

/-- **C70** The arrays an object keeps after `generate` are incompressible at every mode off the Nyquist lines and average to
zero, for every state of the random stream: with `û1`, `û2` the discrete Fourier transforms of `u1_full`, `u2_full`,
`k1 û1 + k2 û2 = 0`. -/
theorem C70_generated {cfg : LFConfig} (hp : cfg.Pos) {lf : LowFreq} (h : lfInit cfg = .ok lf) (g : ℕ → ℝ) (pos : ℕ) :
    ∃ (u : Mat × Mat) (f1 f2 : Mat) (lf' : LowFreq) (pos' : ℕ),
      lf.generate g pos = (.ok u, (lf', pos')) ∧ lf'.full = some (f1, f2) ∧
      f1.HasShape lf.compN1 lf.compN2 ∧ f2.HasShape lf.compN1 lf.compN2 ∧
      (∀ a < lf.compN1, ∀ b < lf.compN2, 2 * a ≠ lf.compN1 → 2 * b ≠ lf.compN2 →
        (Spec.waveNumber lf.compN1 lf.compDx a : ℂ) * Spec.planeDft lf.compN1 lf.compN2 f1.entry a b +
          (Spec.waveNumber lf.compN2 lf.compDy b : ℂ) * Spec.planeDft lf.compN1 lf.compN2 f2.entry a b = 0) ∧
      (∑ i ∈ Finset.range lf.compN1, ∑ j ∈ Finset.range lf.compN2, f1.entry i j = 0) ∧
      (∑ i ∈ Finset.range lf.compN1, ∑ j ∈ Finset.range lf.compN2, f2.entry i j = 0) := by
  obtain ⟨u1, u2, f1, f2, lf', hg, he, s1, s2, -⟩ := generate_spec hp h g pos
  obtain ⟨⟨-, c1, -, c2⟩, -⟩ := C67_grid hp h
  haveI : NeZero lf.compN1 := ⟨by omega⟩
  haveI : NeZero lf.compN2 := ⟨by omega⟩
  have hf : lf'.full = some (f1, f2) := by rw [he]
  have hent := fun {i j} (hi : i < lf.compN1) (hj : j < lf.compN2) => generate_full hg hf hi hj
  have hsum : ∀ (f : Mat) (i : Fin 2), (∀ a < lf.compN1, ∀ b < lf.compN2,
      f.entry a b = lfFull lf (lfNoise g pos : Box lf.compN1 lf.compN2 1 → ℝ) i (a, b, 0)) →
      ∑ i ∈ Finset.range lf.compN1, ∑ j ∈ Finset.range lf.compN2, f.entry i j = 0 := by
    intro f i hfi
    rw [range_eq_box, ← C70_zero_mean lf (lfNoise g pos : Box lf.compN1 lf.compN2 1 → ℝ) i]
    refine Finset.sum_congr rfl fun x _ => ?_
    rw [hfi _ (ZMod.val_lt _) _ (ZMod.val_lt _), ZMod.natCast_zmod_val, ZMod.natCast_zmod_val]
    exact congrArg _ (Prod.ext rfl (Prod.ext rfl (Subsingleton.elim _ _)))
  refine ⟨(u1, u2), f1, f2, lf', _, hg, hf, s1, s2, fun a ha b hb na nb => ?_,
    hsum f1 0 fun a ha b hb => (hent ha hb).1, hsum f2 1 fun a ha b hb => (hent ha hb).2⟩
  rw [planeDft_eq _ f1.entry (fun i hi j hj => (hent hi hj).1), planeDft_eq _ f2.entry (fun i hi j hj => (hent hi hj).2),
    waveNumber_eq _ ha, waveNumber_eq _ hb]
  exact C70_divergence_free lf (lfNoise g pos : Box lf.compN1 lf.compN2 1 → ℝ)
    (k := (((a : ℕ) : ZMod lf.compN1), ((b : ℕ) : ZMod lf.compN2), 0))
    (by simp only; rwa [zmod_val_cast ha]) (by simp only; rwa [zmod_val_cast hb])

/-! ### C82 -/

section
variable {Ω : Type} [MeasurableSpace Ω] {μ : Measure Ω}

/-- The values of a white stream at different grid points are different values of the stream. -/
theorem lfNoise_white {n1 n2 : ℕ} [NeZero n1] [NeZero n2] (γ : ℕ → Ω → ℝ)
    (hcov : ∀ m n, ∫ ω, γ m ω * γ n ω ∂μ = if m = n then 1 else 0) (pos : ℕ) (x y : Box n1 n2 1) :
    ∫ ω, lfNoise (fun m => γ m ω) pos x * lfNoise (fun m => γ m ω) pos y ∂μ = if x = y then 1 else 0 := by
  unfold lfNoise
  rw [hcov]
  refine if_congr ⟨fun h => ?_, fun h => by rw [h]⟩ rfl rfl
  obtain ⟨e1, e2⟩ := digits_inj (ZMod.val_lt _) (ZMod.val_lt _) (Nat.add_left_cancel h)
  exact Prod.ext (ZMod.val_injective _ e1) (Prod.ext (ZMod.val_injective _ e2) (Subsingleton.elim _ _))

/-- Component `c` of a pair of arrays. -/
def Spec.pick (c : Fin 2) (u : Mat × Mat) : Mat := match c with | 0 => u.1 | 1 => u.2

theorem pick_entry {cfg : LFConfig} (hp : cfg.Pos) {lf : LowFreq} (h : lfInit cfg = .ok lf) [NeZero lf.compN1]
    [NeZero lf.compN2] {g : ℕ → ℝ} {pos : ℕ} {u : Mat × Mat} {s : LowFreq × ℕ} (hg : lf.generate g pos = (.ok u, s))
    (c : Fin 2) {i j : ℕ} (hi : i < lf.userN1) (hj : j < lf.userN2) :
    (Spec.pick c u).entry i j = lfFull lf (lfNoise g pos : Box lf.compN1 lf.compN2 1 → ℝ) c
          (((lf.compN1 - lf.userN1) / 2 + i : ℕ), ((lf.compN2 - lf.userN2) / 2 + j : ℕ), 0) := by
  obtain ⟨u1, u2, a', b', e, -, -, hent⟩ := generate_entry hp h lf.full lf.u g pos
  have e' : lf.generate g pos = (.ok (u1, u2), ({ lf with full := a', u := b' }, pos + lf.compN1 * lf.compN2)) := e
  rw [hg] at e'
  simp only [Prod.mk.injEq, Except.ok.injEq] at e'
  rw [e'.1]
  fin_cases c
  · exact (hent i hi j hj).1
  · exact (hent i hi j hj).2

/-- **C82** The pair of arrays a user receives is stationary: for every stream of uncorrelated square-integrable values with
mean square one, covariances between entries depend on the displacement only. -/
theorem C82_generated_stationary {cfg : LFConfig} (hp : cfg.Pos) {lf : LowFreq} (h : lfInit cfg = .ok lf) (γ : ℕ → Ω → ℝ)
    (hL2 : ∀ m, MemLp (γ m) 2 μ) (hcov : ∀ m n, ∫ ω, γ m ω * γ n ω ∂μ = if m = n then 1 else 0) (pos : ℕ)
    {u : Ω → Mat × Mat} (hu : ∀ ω, ∃ s, lf.generate (fun m => γ m ω) pos = (.ok (u ω), s)) (c d : Fin 2)
    {i j i' j' s t : ℕ} (hi : i + s < lf.userN1) (hj : j + t < lf.userN2) (hi' : i' + s < lf.userN1)
    (hj' : j' + t < lf.userN2) :
    ∫ ω, (Spec.pick c (u ω)).entry (i + s) (j + t) * (Spec.pick d (u ω)).entry (i' + s) (j' + t) ∂μ =
      ∫ ω, (Spec.pick c (u ω)).entry i j * (Spec.pick d (u ω)).entry i' j' ∂μ := by
  obtain ⟨⟨-, c1, -, c2⟩, -⟩ := C67_grid hp h
  haveI : NeZero lf.compN1 := ⟨by omega⟩
  haveI : NeZero lf.compN2 := ⟨by omega⟩
  have e : ∀ ω (c : Fin 2) {i j : ℕ}, i < lf.userN1 → j < lf.userN2 → (Spec.pick c (u ω)).entry i j =
      lfFull lf (fun z : Box lf.compN1 lf.compN2 1 => lfNoise (fun m => γ m ω) pos z) c
        (((lf.compN1 - lf.userN1) / 2 + i : ℕ), ((lf.compN2 - lf.userN2) / 2 + j : ℕ), 0) := by
    intro ω c i j hi hj
    obtain ⟨s, hs⟩ := hu ω
    exact pick_entry hp h hs c hi hj
  simp only [fun ω => e ω c hi hj, fun ω => e ω d hi' hj', fun ω => e ω c (show i < lf.userN1 by omega) (show j < lf.userN2 by omega),
    fun ω => e ω d (show i' < lf.userN1 by omega) (show j' < lf.userN2 by omega)]
  symm
  rw [← C82_stationary (fun (z : Box lf.compN1 lf.compN2 1) ω => lfNoise (fun m => γ m ω) pos z) (fun z => hL2 _)
    (lfNoise_white γ hcov pos) lf c d _ _ (((s : ℕ) : ZMod lf.compN1), ((t : ℕ) : ZMod lf.compN2), 0)]
  congr 1
  funext ω
  simp only [Prod.mk_add_mk]
  push_cast
  simp only [add_assoc, add_zero]

/-- Every wavenumber but zero is at least one spacing of the spectral grid away from zero. -/
theorem waveNumber_sq {n a : ℕ} (hn : 0 < n) {d : ℝ} (ha : a < n) (h0 : a ≠ 0) :
    (2 * Real.pi / (n * d)) ^ 2 ≤ Spec.waveNumber n d a ^ 2 := by
  unfold Spec.waveNumber
  set r : ℝ := if 2 * a < n then (a : ℝ) else (a : ℝ) - n with hr
  have h1 : (1 : ℝ) ≤ r ^ 2 := by
    have ha' : (1 : ℝ) ≤ a := by exact_mod_cast Nat.one_le_iff_ne_zero.2 h0
    have ha2 : (a : ℝ) + 1 ≤ n := by exact_mod_cast ha
    rw [hr]
    split_ifs <;> nlinarith
  have e : 2 * Real.pi * r / (n * d) = 2 * Real.pi / (n * d) * r := by ring
  rw [e, mul_pow]
  nlinarith [sq_nonneg (2 * Real.pi / ((n : ℝ) * d))]

/-- **C82** The variance of every entry of the arrays a user receives: the Riemann sum, over the wavenumbers of the
computational grid, of the analytical spectral density of that component; the Nyquist line of the wavenumber that multiplies
the component is missing. -/
theorem C82_generated_variance {cfg : LFConfig} (hp : cfg.Pos) {lf : LowFreq} (h : lfInit cfg = .ok lf) (hs : 0 < cfg.sigma2)
    (hcut : 1e-30 ≤ (1 / cfg.L2d ^ 2) ^ (7 / 3 : ℝ)) (hd : 1e-16 ≤ lf.compDx * lf.compDy)
    (hk1 : 1e-20 ≤ (2 * Real.pi / lf.compL1 * Real.cos cfg.psi) ^ 2)
    (hk2 : 1e-20 ≤ (2 * Real.pi / lf.compL2 * Real.sin cfg.psi) ^ 2) (γ : ℕ → Ω → ℝ)
    (hL2 : ∀ m, MemLp (γ m) 2 μ) (hcov : ∀ m n, ∫ ω, γ m ω * γ n ω ∂μ = if m = n then 1 else 0) (pos : ℕ)
    {u : Ω → Mat × Mat} (hu : ∀ ω, ∃ s, lf.generate (fun m => γ m ω) pos = (.ok (u ω), s))
    {i j : ℕ} (hi : i < lf.userN1) (hj : j < lf.userN2) :
    let density := fun c a b => lfIntegrand lf.c cfg.L2d cfg.psi cfg.zi c (Spec.waveNumber lf.compN2 lf.compDy b)
      (Spec.waveNumber lf.compN1 lf.compDx a)
    let cell := 2 * Real.pi / lf.compL1 * (2 * Real.pi / lf.compL2)
    ∫ ω, (u ω).1.entry i j ^ 2 ∂μ = cell * ∑ a ∈ Finset.range lf.compN1, ∑ b ∈ Finset.range lf.compN2,
      (if 2 * b = lf.compN2 then 0 else density 0 a b) ∧
    ∫ ω, (u ω).2.entry i j ^ 2 ∂μ = cell * ∑ a ∈ Finset.range lf.compN1, ∑ b ∈ Finset.range lf.compN2,
      (if 2 * a = lf.compN1 then 0 else density 1 a b) := by
  intro density cell
  obtain ⟨⟨-, c1, -, c2⟩, -, ⟨l1, l2⟩, -⟩ := C67_grid hp h
  obtain ⟨c, hcc⟩ := lfInit_computeC h
  obtain ⟨lf0, h0, hcfg, hlc, -⟩ := lfInit_ok hp hcc
  rw [h] at h0
  obtain rfl := Except.ok.inj h0
  have hc : 0 ≤ lf.c := by rw [hlc]; exact ((C71_sign hcc).2 hs).le
  haveI : NeZero lf.compN1 := ⟨by omega⟩
  haveI : NeZero lf.compN2 := ⟨by omega⟩
  have e : ∀ ω (c : Fin 2), (Spec.pick c (u ω)).entry i j =
      lfFull lf (fun z : Box lf.compN1 lf.compN2 1 => lfNoise (fun m => γ m ω) pos z) c
        (((lf.compN1 - lf.userN1) / 2 + i : ℕ), ((lf.compN2 - lf.userN2) / 2 + j : ℕ), 0) := by
    intro ω c
    obtain ⟨s, hs⟩ := hu ω
    exact pick_entry hp h hs c hi hj
  have hw : ∀ (n : ℕ) [NeZero n] (d : ℝ) (x : ZMod n), Spec.waveNumber n d x.val = lfFreq n d x := by
    intro n _ d x
    rw [waveNumber_eq d (ZMod.val_lt x), ZMod.natCast_zmod_val]
  have hk : ∀ a < lf.compN1, ∀ b < lf.compN2, a ≠ 0 ∨ b ≠ 0 →
      1e-20 ≤ Spec.waveNumber lf.compN1 lf.compDx a ^ 2 + Spec.waveNumber lf.compN2 lf.compDy b ^ 2 ∧
      1e-20 ≤ 2 * ((Spec.waveNumber lf.compN1 lf.compDx a * Real.cos cfg.psi) ^ 2 +
        (Spec.waveNumber lf.compN2 lf.compDy b * Real.sin cfg.psi) ^ 2) := by
    intro a ha b hb hab
    have hc2 := Real.sin_sq_add_cos_sq cfg.psi
    have s2 := sq_nonneg (Real.sin cfg.psi)
    have s3 := sq_nonneg (Real.cos cfg.psi)
    have w1 := sq_nonneg (Spec.waveNumber lf.compN1 lf.compDx a)
    have w2 := sq_nonneg (Spec.waveNumber lf.compN2 lf.compDy b)
    rw [mul_pow] at hk1 hk2 ⊢
    rw [mul_pow]
    rcases hab with h0 | h0
    · have := waveNumber_sq (d := lf.compDx) (NeZero.pos lf.compN1) ha h0
      rw [← l1] at this
      constructor <;> nlinarith
    · have := waveNumber_sq (d := lf.compDy) (NeZero.pos lf.compN2) hb h0
      rw [← l2] at this
      constructor <;> nlinarith
  have key := fun c : Fin 2 => C82_variance (μ := μ) (fun (z : Box lf.compN1 lf.compN2 1) ω => lfNoise (fun m => γ m ω) pos z)
    (fun z => hL2 _) (lfNoise_white γ hcov pos) lf hc (by rw [hcfg]; exact hp.1) (by rw [hcfg]; exact hcut) hd (fun k hk0 => by
      have hne : k.1.val ≠ 0 ∨ k.2.1.val ≠ 0 := by
        by_contra hcon
        push Not at hcon
        refine hk0 (Prod.ext ((ZMod.val_eq_zero _).1 hcon.1) (Prod.ext ((ZMod.val_eq_zero _).1 hcon.2) (Subsingleton.elim _ _)))
      have := hk _ (ZMod.val_lt k.1) _ (ZMod.val_lt k.2.1) hne
      rw [hw, hw, ← hcfg] at this
      exact this) c
    (((lf.compN1 - lf.userN1) / 2 + i : ℕ), ((lf.compN2 - lf.userN2) / 2 + j : ℕ), 0)
  constructor
  · have k0 := key 0
    rw [← l1, ← l2] at k0
    calc ∫ ω, (u ω).1.entry i j ^ 2 ∂μ = _ := by
          congr 1; funext ω; rw [show (u ω).1 = Spec.pick 0 (u ω) from rfl, e ω 0]
      _ = _ := k0
      _ = _ := by
        rw [range_eq_box]
        congr 1
        refine Finset.sum_congr rfl fun k _ => ?_
        simp only [density, hw, hcfg]
        by_cases q : 2 * k.2.1.val = lf.compN2
        · rw [if_pos q, if_neg (show ¬ lfKept 0 k from fun z => z q)]
        · rw [if_neg q, if_pos (show lfKept 0 k from q)]
  · have k0 := key 1
    rw [← l1, ← l2] at k0
    calc ∫ ω, (u ω).2.entry i j ^ 2 ∂μ = _ := by
          congr 1; funext ω; rw [show (u ω).2 = Spec.pick 1 (u ω) from rfl, e ω 1]
      _ = _ := k0
      _ = _ := by
        rw [range_eq_box]
        congr 1
        refine Finset.sum_congr rfl fun k _ => ?_
        simp only [density, hw, hcfg]
        by_cases q : 2 * k.1.val = lf.compN1
        · rw [if_pos q, if_neg (show ¬ lfKept 1 k from fun z => z q)]
        · rw [if_neg q, if_pos (show lfKept 1 k from q)]

end

/-- The study's base configuration with factor 5 meets the hypotheses of `C82_generated_variance`, and a stream of the kind
asked for exists on every probability space carrying an orthonormal sequence. -/
example : ∃ lf, lfInit (domainConfig 5) = .ok lf ∧ 0 < (domainConfig 5).sigma2 ∧
    1e-30 ≤ (1 / (domainConfig 5).L2d ^ 2) ^ (7 / 3 : ℝ) ∧ 1e-16 ≤ lf.compDx * lf.compDy ∧
    1e-20 ≤ (2 * Real.pi / lf.compL1 * Real.cos (domainConfig 5).psi) ^ 2 ∧
    1e-20 ≤ (2 * Real.pi / lf.compL2 * Real.sin (domainConfig 5).psi) ^ 2 := by
  obtain ⟨c, hc⟩ := study_computeC
  have hp : (domainConfig 5).Pos := by norm_num [LFConfig.Pos, domainConfig]
  obtain ⟨lf, h, -, -, -, -, L1, L2, N1, N2, ex, ey, -, ⟨dx, dy⟩, -⟩ := lfInit_ok hp hc
  obtain ⟨-, -, -, ⟨a1, a2⟩, ⟨b1, b2⟩, -⟩ := C67_grid hp h
  have ux : lf.userDx = 75000 / 512 := by rw [ex, L1, N1]; norm_num [domainConfig]
  have uy : lf.userDy = 75000 / 512 := by rw [ey, L2, N2]; norm_num [domainConfig]
  rw [ux, uy, min_self] at dx dy
  have e1 : lf.userL1 = 75000 := by rw [L1]; norm_num [domainConfig]
  have e2 : lf.userL2 = 75000 := by rw [L2]; norm_num [domainConfig]
  rw [dx, e1] at a2
  rw [dy, e2] at b2
  rw [e1] at a1
  rw [e2] at b1
  norm_num [domainConfig] at a1 a2 b1 b2
  have hpi := Real.two_le_pi
  have hcut : ∀ L : ℝ, 75000 ≤ L → L < 76000 → 1e-20 ≤ (2 * Real.pi / L * (√2 / 2)) ^ 2 := by
    intro L l1 l2
    rw [mul_pow, div_pow √2, Real.sq_sqrt (by norm_num)]
    have : (4 / 76000 : ℝ) ≤ 2 * Real.pi / L := by
      rw [div_le_div_iff₀ (by norm_num) (by linarith)]
      nlinarith
    nlinarith
  refine ⟨lf, h, by norm_num [domainConfig], ?_, by rw [dx, dy]; norm_num, ?_, ?_⟩
  · have : (1 / (domainConfig 5).L2d ^ 2) = (1 / 225000000 : ℝ) := by norm_num [domainConfig]
    rw [this]
    calc (1e-30 : ℝ) ≤ (1 / 225000000 : ℝ) ^ (3 : ℝ) := by norm_num
      _ ≤ (1 / 225000000 : ℝ) ^ (7 / 3 : ℝ) :=
        Real.rpow_le_rpow_of_exponent_ge (by norm_num) (by norm_num) (by norm_num)
  · rw [show (domainConfig 5).psi = Real.pi / 4 from rfl, Real.cos_pi_div_four]
    exact hcut _ (by linarith) (by linarith)
  · rw [show (domainConfig 5).psi = Real.pi / 4 from rfl, Real.sin_pi_div_four]
    exact hcut _ (by linarith) (by linarith)

end

end Verif
