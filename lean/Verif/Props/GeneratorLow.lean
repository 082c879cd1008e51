import Verif.Props.GeneratorNoise
import Verif.Props.LowFreqEstimate
import Mathlib.Analysis.Real.Pi.Bounds

/-!
# The attached low-frequency model: splitting calls, dependence on the global random state (C52, C59)
-/

namespace Verif
open Fl

noncomputable section
open Classical

section
variable {n1 n2 : ℕ} [NeZero n1] [NeZero n2]

/-- Every noise array can be drawn. -/
theorem lfNoise_surj (pos : ℕ) (noise : Box n1 n2 1 → ℝ) : ∃ glob : ℕ → ℝ, lfNoise glob pos = noise := by
  refine ⟨fun m => if h : ∃ x : Box n1 n2 1, pos + (x.1.val * n2 + x.2.1.val) = m then noise h.choose else 0, ?_⟩
  funext x
  unfold lfNoise
  have h : ∃ y : Box n1 n2 1, pos + (y.1.val * n2 + y.2.1.val) = pos + (x.1.val * n2 + x.2.1.val) := ⟨x, rfl⟩
  refine (dif_pos h).trans ?_
  have hs := h.choose_spec
  obtain ⟨e1, e2⟩ := digits_inj (ZMod.val_lt _) (ZMod.val_lt _) (Nat.add_left_cancel hs)
  congr 1
  exact Prod.ext (ZMod.val_injective _ e1) (Prod.ext (ZMod.val_injective _ e2) (Subsingleton.elim _ _))

/-- A combination of field values is a non-zero function of the noise as soon as one mode sees it. -/
theorem lfFull_combination {m : ℕ} (lf : LowFreq) (i : Fin 2) (α : Fin m → ℝ) (x : Fin m → Box n1 n2 1) {k : Box n1 n2 1}
    (hk : lfQr lf i k ≠ 0) (hw : ∑ j, (α j : ℂ) * wave k (x j) ≠ 0) :
    ∃ noise, ∑ j, α j * lfFull lf noise i (x j) ≠ 0 := by
  by_contra hall
  push Not at hall
  have himp : ∀ z, ∑ j, α j * lfImp lf i (x j - z) = 0 := by
    intro z
    rw [← hall fun y => if y = z then 1 else 0]
    refine Finset.sum_congr rfl fun j _ => ?_
    rw [lfFull_imp]
    simp
  set H : Box n1 n2 1 → ℂ := fun k => lfQr lf i k * ∑ j, (α j : ℂ) * wave k (x j) with hH
  have hz : ifftn H = fun _ => 0 := by
    funext z
    have := congrArg (fun r : ℝ => (r : ℂ)) (himp (-z))
    push_cast at this
    rw [← this]
    simp only [lfImp_eq]
    unfold ifftn
    simp only [hH, Finset.mul_sum, Finset.sum_mul]
    rw [Finset.sum_comm]
    refine Finset.sum_congr rfl fun j _ => Finset.sum_congr rfl fun k _ => ?_
    rw [sub_neg_eq_add, wave_add_right]
    ring
  have h0 : H k = 0 := by
    rw [← fftn_ifftn H, hz]
    unfold fftn
    simp
  exact mul_ne_zero hk hw h0

omit [NeZero n1] [NeZero n2] in
/-- Positive amplitude. -/
theorem lfAmp_pos (lf : LowFreq) (hc : 0 < lf.c) (hL : 0 < lf.cfg.L2d)
    (hcut : 1e-30 ≤ (1 / lf.cfg.L2d ^ 2) ^ (7 / 3 : ℝ)) (k : Box n1 n2 1)
    (hk : 1e-20 ≤ lfFreq n1 lf.compDx k.1 ^ 2 + lfFreq n2 lf.compDy k.2.1 ^ 2) : 0 < lfAmp lf k := by
  unfold lfAmp lfPhi
  simp only
  rw [if_neg (not_lt.2 hk)]
  set k1 := lfFreq n1 lf.compDx k.1
  set k2 := lfFreq n2 lf.compDy k.2.1
  have hks : 0 < k1 ^ 2 + k2 ^ 2 := lt_of_lt_of_le (by norm_num) hk
  have hkap : 0 ≤ lfKappaSq lf.cfg.psi k1 k2 := by unfold lfKappaSq; positivity
  have hb : 0 < 1 / lf.cfg.L2d ^ 2 := by positivity
  have hd1 : 1e-30 ≤ (1 / lf.cfg.L2d ^ 2 + lfKappaSq lf.cfg.psi k1 k2) ^ (7 / 3 : ℝ) :=
    hcut.trans (Real.rpow_le_rpow hb.le (by linarith) (by norm_num))
  have hd2 : 1 ≤ 1 + lfKappaSq lf.cfg.psi k1 k2 * lf.cfg.zi ^ 2 := by nlinarith [sq_nonneg lf.cfg.zi, mul_nonneg hkap (sq_nonneg lf.cfg.zi)]
  have hd : 1e-30 ≤ (1 / lf.cfg.L2d ^ 2 + lfKappaSq lf.cfg.psi k1 k2) ^ (7 / 3 : ℝ) *
      (1 + lfKappaSq lf.cfg.psi k1 k2 * lf.cfg.zi ^ 2) := hd1.trans (le_mul_of_one_le_right (le_trans (by norm_num) hd1) hd2)
  rw [if_neg (not_lt.2 hd)]
  have hd0 := lt_of_lt_of_le (by norm_num : (0 : ℝ) < 1e-30) hd
  have hkp : 0 < Real.sqrt (max (lfKappaSq lf.cfg.psi k1 k2) 1e-20) :=
    Real.sqrt_pos.2 (lt_of_lt_of_le (by norm_num) (le_max_right _ _))
  have hsq := Real.sqrt_pos.2 hks
  have hpi := Real.pi_pos
  have hterm : 0 < lf.c * Real.sqrt (max (lfKappaSq lf.cfg.psi k1 k2) 1e-20) ^ 3 /
      ((1 / lf.cfg.L2d ^ 2 + lfKappaSq lf.cfg.psi k1 k2) ^ (7 / 3 : ℝ) *
        (1 + lfKappaSq lf.cfg.psi k1 k2 * lf.cfg.zi ^ 2)) / (Real.pi * Real.sqrt (k1 ^ 2 + k2 ^ 2) ^ 3) := by positivity
  rw [max_eq_left hterm.le]
  have hg : 0 < Real.sqrt (max (lf.compDx * lf.compDy) 1e-16) :=
    Real.sqrt_pos.2 (lt_of_lt_of_le (by norm_num) (le_max_right _ _))
  exact mul_pos (Real.sqrt_pos.2 hterm) (by positivity)

theorem lfFreq_one {n : ℕ} [NeZero n] (hn : 3 ≤ n) (d : ℝ) : lfFreq n d (1 : ZMod n) = 2 * Real.pi / (n * d) := by
  have : Fact (1 < n) := ⟨by omega⟩
  unfold lfFreq fftIdx
  rw [ZMod.val_one n, if_pos (by omega)]
  simp
  ring

/-- The transfer function of the first component does not vanish at the modes `(_, 1)`. -/
theorem lfQr_ne (lf : LowFreq) (hc : 0 < lf.c) (hL : 0 < lf.cfg.L2d)
    (hcut : 1e-30 ≤ (1 / lf.cfg.L2d ^ 2) ^ (7 / 3 : ℝ)) (hn : 3 ≤ n2) (hd : 0 < lf.compDy) (hl : n2 * lf.compDy ≤ 6e10)
    (k1 : ZMod n1) : lfQr lf 0 ((k1, 1, 0) : Box n1 n2 1) ≠ 0 := by
  have : Fact (1 < n2) := ⟨by omega⟩
  have hv : ((1 : ZMod n2)).val = 1 := ZMod.val_one n2
  have hpos : (0 : ℝ) < n2 * lf.compDy := mul_pos (by exact_mod_cast (by omega : 0 < n2)) hd
  have hf : lfFreq n2 lf.compDy (1 : ZMod n2) = 2 * Real.pi / (n2 * lf.compDy) := lfFreq_one hn _
  have hf1 : (1e-10 : ℝ) ≤ lfFreq n2 lf.compDy (1 : ZMod n2) := by
    rw [hf, le_div_iff₀ hpos]
    nlinarith [Real.pi_gt_three]
  rw [lfQr_zero_eq]
  simp only
  rw [if_neg (by rw [hv]; omega)]
  refine mul_ne_zero Complex.I_ne_zero ?_
  have ha := lfAmp_pos lf hc hL hcut ((k1, 1, 0) : Box n1 n2 1) (by
    have := sq_nonneg (lfFreq n1 lf.compDx k1)
    simp only
    nlinarith)
  have h1 : lfFreq n2 lf.compDy (1 : ZMod n2) ≠ 0 := (lt_of_lt_of_le (by norm_num) hf1).ne'
  exact_mod_cast mul_ne_zero ha.ne' h1

end

/-- The full arrays in terms of the drawn noise: entry `(i, j)` is the real field at that point, and the noise consists of the
next values of the global stream in C order. -/
theorem generate_full {lf : LowFreq} [NeZero lf.compN1] [NeZero lf.compN2] {g : ℕ → ℝ} {pos : ℕ} {x : Mat × Mat} {lf' : LowFreq}
    {q : ℕ} (h : lf.generate g pos = (.ok x, (lf', q))) {f1 f2 : Mat} (hf : lf'.full = some (f1, f2)) {i j : ℕ}
    (hi : i < lf.compN1) (hj : j < lf.compN2) :
    f1.entry i j = lfFull lf (lfNoise g pos : Box lf.compN1 lf.compN2 1 → ℝ) 0 (i, j, 0) ∧
    f2.entry i j = lfFull lf (lfNoise g pos : Box lf.compN1 lf.compN2 1 → ℝ) 1 (i, j, 0) := by
  have ht : ∀ f : ℕ → ℕ → ℝ, (tab2 lf.compN1 lf.compN2 f).entry i j = f i j := by
    intro f
    unfold Mat.entry tab2
    simp [List.getD_eq_getElem?_getD, hi, hj]
  unfold LowFreq.generate at h
  rw [dif_pos ⟨NeZero.pos _, NeZero.pos _⟩] at h
  simp only at h
  split at h
  · simp at h
  · split at h
    · simp at h
    · simp only [Prod.mk.injEq] at h
      rw [← h.2.1] at hf
      simp only [Option.some.injEq, Prod.mk.injEq] at hf
      rw [← hf.1, ← hf.2]
      unfold boxMat
      rw [ht, ht]
      exact ⟨rfl, rfl⟩

/-- A generator with a low-frequency part can be built with every state of the global stream, and only the low-frequency
part differs. -/
theorem genInit_glob {env : GenEnv} {a : GenArgs} {g : Gen} {q : ℕ} (h : genInit env a = (.ok g, q)) {cfg : LFConfig}
    (hlow : a.low = some cfg) (hp : cfg.Pos) {lf : LowFreq} (hlf : lfInit cfg = .ok lf) (glob : ℕ → ℝ) :
    ∃ x lf' q', lf.generate glob env.globPos = (.ok x, (lf', q')) ∧
      genInit { env with glob } a = (.ok { g with low := some lf' }, q') := by
  obtain ⟨u1, u2, f1, f2, lf', hgen, -⟩ := generate_spec hp hlf glob env.globPos
  refine ⟨_, _, _, hgen, ?_⟩
  have e : genScales { env with glob } a = genScales env a := rfl
  unfold genInit at h ⊢
  rw [e]
  cases hs : genScales env a with
  | error e => rw [hs] at h; simp at h
  | ok r =>
    obtain ⟨K, L, T⟩ := r
    rw [hs] at h
    simp only at h ⊢
    split at h <;> try (simp at h; done)
    split at h
    · simp at h
    rename_i hsh
    rw [if_neg hsh]
    split at h
    · simp at h
    simp only [hlow, hlf] at h
    simp only [hlow, hlf, hgen]
    split at h
    · simp at h
    simp only [Prod.mk.injEq, Except.ok.injEq] at h ⊢
    exact ⟨by rw [← h.1], trivial⟩

/-- A low-frequency configuration whose field is not degenerate, for a box of length `d1` and width `d2`: positive variance,
length scale between a metre and a thousand kilometres, at least four points along each axis, the domain as wide as the
box, box length a multiple of the grid spacing. -/
structure LFConfig.Fits (cfg : LFConfig) (d1 d2 : ℝ) (m : ℕ) : Prop where
  pos : cfg.Pos
  sigma : 0 < cfg.sigma2
  lower : 1 ≤ cfg.L2d
  upper : cfg.L2d ≤ 1e6
  n1 : 2 ≤ cfg.exp1
  n2 : 2 ≤ cfg.exp2
  width : cfg.L2factor * cfg.L2d = d2
  width_le : d2 ≤ 1e10
  length : d1 = m * (cfg.L1factor * cfg.L2d / (2 ^ cfg.exp1 : ℕ))

/-- The interpolated values at the first point of local block `i`, for a given global stream. -/
theorem lowAt_node {g : Gen} {cfg : LFConfig} {m : ℕ} (hf : cfg.Fits g.d1 g.d2 m) {lf lf' : LowFreq} {glob : ℕ → ℝ}
    {pos q : ℕ} {x : Mat × Mat} (hlf : lfInit cfg = .ok lf) (hgen : lf.generate glob pos = (.ok x, (lf', q)))
    [NeZero lf.compN1] [NeZero lf.compN2] (i : ℕ) (hi : i * m < 2 ^ cfg.exp1) :
    ((Gen.lowAt { g with low := some lf' }) i 0 0).1 =
      lfFull lf (lfNoise glob pos : Box lf.compN1 lf.compN2 1 → ℝ) 0
        (((lf.compN1 - lf.userN1) / 2 + i * m : ℕ), ((lf.compN2 - lf.userN2) / 2 : ℕ), 0) := by
  obtain ⟨u1, u2, f1, f2, lf'', hgen', hlf', -, -, -, -, hu⟩ := generate_spec hf.pos hlf glob pos
  rw [hgen] at hgen'
  simp only [Prod.mk.injEq] at hgen'
  obtain ⟨-, rfl, -⟩ := hgen'
  obtain ⟨c, hc⟩ := lfInit_computeC hlf
  obtain ⟨lf0, h0, -, -, -, -, l1, l2, N1, N2, -, -, -, -, -, -, -, c1, c2⟩ := lfInit_ok hf.pos hc
  rw [hlf] at h0
  obtain rfl := Except.ok.inj h0
  have hp1 : 0 < lf.userL1 := by rw [l1]; exact mul_pos hf.pos.2.1 hf.pos.1
  have hp2 : 0 < lf.userL2 := by rw [l2]; exact mul_pos hf.pos.2.2 hf.pos.1
  have hN1 : 4 ≤ lf.userN1 := by rw [N1]; exact (Nat.pow_le_pow_right (by norm_num) hf.n1 : 2 ^ 2 ≤ 2 ^ cfg.exp1)
  have hN2 : 4 ≤ lf.userN2 := by rw [N2]; exact (Nat.pow_le_pow_right (by norm_num) hf.n2 : 2 ^ 2 ≤ 2 ^ cfg.exp2)
  have him : i * m < lf.userN1 := by rw [N1]; exact hi
  have hx : ((i : ℝ) + ((0 : ℕ) : ℝ) / g.Nx) * g.d1 = ((i * m : ℕ) : ℝ) * (lf.userL1 / lf.userN1) := by
    rw [hf.length, l1, N1]; push_cast; simp; ring
  have hy : lf.userL2 / 2 - g.d2 / 2 + ((0 : ℕ) : ℝ) * (g.d2 / g.Ny) = ((0 : ℕ) : ℝ) * (lf.userL2 / lf.userN2) := by
    rw [← hf.width, l2]; push_cast; ring
  unfold Gen.lowAt
  simp only
  rw [hlf']
  simp only
  change interpAt _ _ _ (((i : ℝ) + ((0 : ℕ) : ℝ) / g.Nx) * g.d1)
    (lf.userL2 / 2 - g.d2 / 2 + ((0 : ℕ) : ℝ) * (g.d2 / g.Ny)) = _
  rw [hx, hy, C72_nodes hp1 hp2 (by omega) (by omega) _ him (by omega), (hu _ him 0 (by omega)).1,
    (generate_full hgen (by rw [hlf']) (by omega) (by omega)).1, add_zero]

/-- Facts about the grid of a fitting configuration. -/
theorem LFConfig.Fits.grid {cfg : LFConfig} {d1 d2 : ℝ} {m : ℕ} (hf : cfg.Fits d1 d2 m) {lf : LowFreq} (hlf : lfInit cfg = .ok lf) :
    0 < lf.c ∧ lf.cfg = cfg ∧ 4 ≤ lf.compN1 ∧ 4 ≤ lf.compN2 ∧ 2 ^ cfg.exp1 ≤ lf.compN1 ∧ 0 < lf.compDy ∧
      lf.compN2 * lf.compDy ≤ 6e10 ∧ 1e-30 ≤ (1 / lf.cfg.L2d ^ 2) ^ (7 / 3 : ℝ) := by
  obtain ⟨c, hc⟩ := lfInit_computeC hlf
  obtain ⟨lf0, h0, ecfg, ec, -, -, l1, l2, N1, N2, ex, ey, -, ⟨dx, dy⟩, ⟨-, e2⟩, -, ⟨-, hlt⟩, c1, c2⟩ := lfInit_ok hf.pos hc
  rw [hlf] at h0
  obtain rfl := Except.ok.inj h0
  have hp1 : 0 < lf.userL1 := by rw [l1]; exact mul_pos hf.pos.2.1 hf.pos.1
  have hp2 : 0 < lf.userL2 := by rw [l2]; exact mul_pos hf.pos.2.2 hf.pos.1
  have hN1 : 4 ≤ lf.userN1 := by rw [N1]; exact (Nat.pow_le_pow_right (by norm_num) hf.n1 : 2 ^ 2 ≤ 2 ^ cfg.exp1)
  have hN2 : 4 ≤ lf.userN2 := by rw [N2]; exact (Nat.pow_le_pow_right (by norm_num) hf.n2 : 2 ^ 2 ≤ 2 ^ cfg.exp2)
  have r1 : (4 : ℝ) ≤ lf.userN1 := by exact_mod_cast hN1
  have r2 : (4 : ℝ) ≤ lf.userN2 := by exact_mod_cast hN2
  have px : 0 < lf.userDx := by rw [ex]; positivity
  have py : 0 < lf.userDy := by rw [ey]; positivity
  have hw : lf.userL2 ≤ 1e10 := by rw [l2, hf.width]; exact hf.width_le
  refine ⟨?_, ecfg, by omega, by omega, by omega, ?_, ?_, ?_⟩
  · rw [ec]; exact (C71_sign hc).2 hf.sigma
  · rw [dy]; exact lt_min px py
  · have hd : lf.compDy ≤ 1e10 := by
      rw [dy]
      refine (min_le_right _ _).trans ?_
      rw [ey, div_le_iff₀ (by positivity)]
      nlinarith
    have hmax : max lf.userL2 (5 * cfg.L2d) ≤ 1e10 := max_le hw (by linarith [hf.upper])
    rw [← e2]
    linarith
  · rw [ecfg]
    have hL := hf.pos.1
    have h1 : (1e-12 : ℝ) ≤ 1 / cfg.L2d ^ 2 := by
      rw [le_div_iff₀ (by positivity)]
      nlinarith [hf.upper]
    refine le_trans ?_ (Real.rpow_le_rpow (by norm_num) h1 (by norm_num))
    have : (1e-12 : ℝ) = (1e-4 : ℝ) ^ (3 : ℝ) := by norm_num
    rw [this, ← Real.rpow_mul (by norm_num)]
    norm_num

/-- Phase factors do not vanish. -/
theorem wave_ne_zero {n1 n2 n3 : ℕ} [NeZero n1] [NeZero n2] [NeZero n3] (k x : Box n1 n2 n3) : wave k x ≠ 0 := fun h => by
  have := wave_mul_neg k x
  rw [h, zero_mul] at this
  exact zero_ne_one this

/-- Values of the returned field at the first point of a block. -/
theorem outAt_first {g : Gen} {p : ProfileArgs} (hv : p.Valid) (hlog : p.ptype = "LOG") (hz : p.z0 < p.zref) {lf : LowFreq}
    (hl : g.low = some lf) (i j : ℕ) :
    g.outAt p i j 0 0 0 0 = fin ((g.block j).entry 0 0 0 0 / (g.block j).sd + (g.lowAt i 0 0).1) := by
  have h0 : g.profileAt p 0 = fin 0 := by
    unfold Gen.profileAt
    rw [if_pos hlog, Nat.cast_zero, zero_mul]
    exact (C57_log hv.2.2.2 hz hv.2.2.1).1
  unfold Gen.outAt
  simp only [h0, hl, reduceCtorEq, if_false, add_fin_zero, fin_add_fin]

/-- **C59** (low-frequency model attached).  The seed does not determine the field: whenever a call succeeds, there is another
state of numpy's global generator for which the same constructor arguments, the same seed and the same call give a different
field. -/
theorem C59_low_frequency {env : GenEnv} {a : GenArgs} {g : Gen} {q : ℕ} (ha : a.PosScales) (h : genInit env a = (.ok g, q))
    {cfg : LFConfig} (hlow : a.low = some cfg) {m : ℕ} (hfit : cfg.Fits a.d1 a.d2 m) {p : ProfileArgs} (hlog : p.ptype = "LOG")
    (hz : p.z0 < p.zref) {n : ℕ} (hn : 0 < n) {f : Arr Fl} (hf : (g.generate p n).1 = .ok f) :
    ∃ glob g' q' f', genInit { env with glob } a = (.ok g', q') ∧ (g'.generate p n).1 = .ok f' ∧ f' ≠ f := by
  obtain ⟨K, L, T, hs, hfr, hl, ⟨d1, d2, -⟩, -, -, -, -, -, -, -, -, hex⟩ := genInit_ok h
  obtain ⟨lf, lf0, x0, hlf, hgen0, hg0⟩ := hex cfg hlow
  have hg := genInit_good ha h
  obtain ⟨-, -, -, -, -, -, q1, q2, q3⟩ := hg.shapes
  obtain ⟨kc, ecfg, k1, k2, -, kd, kl, kcut⟩ := hfit.grid hlf
  have : NeZero lf.compN1 := ⟨by omega⟩
  have : NeZero lf.compN2 := ⟨by omega⟩
  set x : Box lf.compN1 lf.compN2 1 := (((lf.compN1 - lf.userN1) / 2 + 0 * m : ℕ), ((lf.compN2 - lf.userN2) / 2 : ℕ), 0) with hx
  have hfit' : cfg.Fits g.d1 g.d2 m := by rw [d1, d2]; exact hfit
  have hval : ∀ (glob : ℕ → ℝ) (y : Mat × Mat) (lf' : LowFreq) (r : ℕ), lf.generate glob env.globPos = (.ok y, (lf', r)) →
      ((Gen.lowAt { g with low := some lf' }) 0 0 0).1 =
        lfFull lf (lfNoise glob env.globPos : Box lf.compN1 lf.compN2 1 → ℝ) 0 x := fun glob y lf' r hgen =>
    lowAt_node hfit' hlf hgen 0 (by rw [zero_mul]; positivity)
  -- another noise with another value
  obtain ⟨noise, hne⟩ : ∃ noise : Box lf.compN1 lf.compN2 1 → ℝ, lfFull lf noise 0 x ≠ (g.lowAt 0 0 0).1 := by
    by_cases h0 : (g.lowAt 0 0 0).1 = 0
    · obtain ⟨noise, hn⟩ := lfFull_combination (m := 1) lf 0 (fun _ => 1) (fun _ => x)
        (lfQr_ne (n1 := lf.compN1) (n2 := lf.compN2) lf kc (by rw [ecfg]; exact hfit.pos.1) kcut (by omega) kd kl 0)
        (by simpa using wave_ne_zero _ x)
      refine ⟨noise, ?_⟩
      rw [h0]
      simpa using hn
    · refine ⟨fun _ => 0, ?_⟩
      rw [lfFull_imp]
      simp only [mul_zero, Finset.sum_const_zero]
      exact fun e => h0 e.symm
  obtain ⟨glob, hglob⟩ := lfNoise_surj env.globPos noise
  obtain ⟨y, lf', q', hgen, hinit⟩ := genInit_glob h hlow hfit.pos hlf glob
  set g' : Gen := { g with low := some lf' } with hg'
  have hl' : g'.LowReady := (genInit_ok hinit).choose_spec.choose_spec.choose_spec.2.2.1
  have hGood' : g'.Good := hg
  have hfr' : g'.Fresh := hfr
  rw [← hfr.st] at hf
  rcases generate_st hg hl p n 0 (tot := ⟨g.Ny, g.Nz, []⟩) ⟨rfl, rfl⟩ with ⟨h1, h2⟩ | ⟨k, hk, -, -, h2⟩
  swap
  · rw [h2] at hf; cases hf
  rw [h2] at hf
  obtain rfl := Except.ok.inj hf
  rcases generate_st hGood' hl' p n 0 (tot := ⟨g'.Ny, g'.Nz, []⟩) ⟨rfl, rfl⟩ with ⟨h3, h4⟩ | ⟨k, hk, -, h5, h4⟩
  swap
  · exact absurd (h1 k hk) h5
  rw [hfr'.st] at h4
  refine ⟨glob, g', q', _, hinit, by rw [h4], ?_⟩
  intro heq
  have e1 := ext_val? g' ⟨g'.Ny, g'.Nz, []⟩ p 0 0 n 0 0 0 0 hn q1 q2 q3
  have e2 := ext_val? g ⟨g.Ny, g.Nz, []⟩ p 0 0 n 0 0 0 0 hn q1 q2 q3
  rw [heq] at e1
  have e3 := e1.symm.trans e2
  have hv := (h1 0 hn).2
  have e4 := congrFun (Option.some.inj e3) 0
  rw [outAt_first hv hlog hz (lf := lf') rfl, outAt_first hv hlog hz hg0] at e4
  have hb : g'.block (0 + 0) = g.block (0 + 0) := rfl
  rw [hb] at e4
  have e5 := add_left_cancel (Fl.fin.inj e4)
  have e6 := hval glob y lf' q' hgen
  rw [hglob] at e6
  rw [Nat.add_zero] at e5
  exact hne (e6.symm.trans e5)

/-- **C52** (low-frequency model attached).  Splitting a call changes the field: whenever a call of `m0 + n` blocks succeeds,
there is a state of numpy's global generator for which `m0 + n` blocks at once and `m0` blocks followed by `n` blocks give
different fields, although all calls succeed. -/
theorem C52_low_frequency {env : GenEnv} {a : GenArgs} {g : Gen} {q : ℕ} (ha : a.PosScales) (h : genInit env a = (.ok g, q))
    {cfg : LFConfig} (hlow : a.low = some cfg) {m : ℕ} (hfit : cfg.Fits a.d1 a.d2 m) {p : ProfileArgs} (hlog : p.ptype = "LOG")
    (hz : p.z0 < p.zref) {m0 n : ℕ} (hn : 0 < n) (hm0 : 0 < m0) (hm1 : m0 * m < 2 ^ cfg.exp1) {f : Arr Fl}
    (hf : (g.generate p (m0 + n)).1 = .ok f) :
    ∃ glob g' q' f0 f1 f2, genInit { env with glob } a = (.ok g', q') ∧ (g'.generate p (m0 + n)).1 = .ok f0 ∧
      (g'.generate p m0).1 = .ok f1 ∧ ((g'.generate p m0).2.generate p n).1 = .ok f2 ∧ f2 ≠ f0 := by
  obtain ⟨K, L, T, hs, hfr, hl, ⟨d1, d2, -⟩, -, -, -, -, -, -, -, -, hex⟩ := genInit_ok h
  obtain ⟨lf, lf0, x0, hlf, hgen0, hg0⟩ := hex cfg hlow
  have hg := genInit_good ha h
  obtain ⟨-, -, -, -, -, -, q1, q2, q3⟩ := hg.shapes
  obtain ⟨kc, ecfg, k1, k2, kN, kd, kl, kcut⟩ := hfit.grid hlf
  have : NeZero lf.compN1 := ⟨by omega⟩
  have : NeZero lf.compN2 := ⟨by omega⟩
  have hm : 0 < m := by
    rcases Nat.eq_zero_or_pos m with rfl | hm
    · have := hfit.length
      rw [Nat.cast_zero, zero_mul] at this
      exact absurd this ha.1.1.ne'
    · exact hm
  have hmm : 0 < m0 * m := Nat.mul_pos hm0 hm
  set x : ℕ → Box lf.compN1 lf.compN2 1 := fun i =>
    (((lf.compN1 - lf.userN1) / 2 + i * m : ℕ), ((lf.compN2 - lf.userN2) / 2 : ℕ), 0) with hx
  have hfit' : cfg.Fits g.d1 g.d2 m := by rw [d1, d2]; exact hfit
  have hval : ∀ i, i * m < 2 ^ cfg.exp1 → ∀ (glob : ℕ → ℝ) (y : Mat × Mat) (lf' : LowFreq) (r : ℕ),
      lf.generate glob env.globPos = (.ok y, (lf', r)) → ((Gen.lowAt { g with low := some lf' }) i 0 0).1 =
        lfFull lf (lfNoise glob env.globPos : Box lf.compN1 lf.compN2 1 → ℝ) 0 (x i) := fun i hi glob y lf' r hgen =>
    lowAt_node hfit' hlf hgen i hi
  have hw : ∑ j : Fin 2, ((![1, -1] : Fin 2 → ℝ) j : ℂ) * wave ((1, 1, 0) : Box lf.compN1 lf.compN2 1) ((![x m0, x 0] : Fin 2 → _) j)
      ≠ 0 := by
    have hxx : x m0 = x 0 + (((m0 * m : ℕ) : ZMod lf.compN1), 0, 0) := by
      simp only [hx, zero_mul, add_zero, Prod.mk_add_mk]
      push_cast
      rfl
    have hch : wave ((1, 1, 0) : Box lf.compN1 lf.compN2 1) ((((m0 * m : ℕ) : ZMod lf.compN1), 0, 0) : Box lf.compN1 lf.compN2 1) ≠ 1 := by
      unfold wave
      simp only [one_mul, mul_zero, AddChar.map_zero_eq_one, mul_one]
      intro e
      have h1 : ((m0 * m : ℕ) : ZMod lf.compN1) = 0 := by
        refine ZMod.injective_stdAddChar ?_
        rw [e, AddChar.map_zero_eq_one]
      have h2 := (ZMod.natCast_eq_zero_iff _ _).1 h1
      exact absurd (Nat.le_of_dvd hmm h2) (by omega)
    simp only [Fin.sum_univ_two, Matrix.cons_val_zero, Matrix.cons_val_one]
    rw [hxx, wave_add_right]
    push_cast
    have : (1 : ℂ) * (wave ((1, 1, 0) : Box lf.compN1 lf.compN2 1) (x 0) *
        wave ((1, 1, 0) : Box lf.compN1 lf.compN2 1) ((((m0 * m : ℕ) : ZMod lf.compN1), 0, 0) : Box lf.compN1 lf.compN2 1)) +
        -1 * wave ((1, 1, 0) : Box lf.compN1 lf.compN2 1) (x 0) = wave ((1, 1, 0) : Box lf.compN1 lf.compN2 1) (x 0) *
        (wave ((1, 1, 0) : Box lf.compN1 lf.compN2 1) ((((m0 * m : ℕ) : ZMod lf.compN1), 0, 0) : Box lf.compN1 lf.compN2 1) - 1) := by
      ring
    push_cast at this
    rw [this]
    refine mul_ne_zero (wave_ne_zero _ _) (sub_ne_zero.2 ?_)
    push_cast at hch
    exact hch
  obtain ⟨noise, hne⟩ := lfFull_combination (m := 2) lf 0 ![1, -1] ![x m0, x 0]
    (lfQr_ne (n1 := lf.compN1) (n2 := lf.compN2) lf kc (by rw [ecfg]; exact hfit.pos.1) kcut (by omega) kd kl 1) hw
  simp only [Fin.sum_univ_two, Matrix.cons_val_zero, Matrix.cons_val_one, one_mul, neg_mul] at hne
  obtain ⟨glob, hglob⟩ := lfNoise_surj env.globPos noise
  obtain ⟨y, lf', q', hgen, hinit⟩ := genInit_glob h hlow hfit.pos hlf glob
  set g' : Gen := { g with low := some lf' } with hg'
  have hl' : g'.LowReady := (genInit_ok hinit).choose_spec.choose_spec.choose_spec.2.2.1
  have hGood' : g'.Good := hg
  have hfr' : g'.Fresh := hfr
  rw [← hfr.st] at hf
  rcases generate_st hg hl p (m0 + n) 0 (tot := ⟨g.Ny, g.Nz, []⟩) ⟨rfl, rfl⟩ with ⟨h1, h2⟩ | ⟨k, hk, -, -, h2⟩
  swap
  · rw [h2] at hf; cases hf
  have hany : ∀ t < m0 + n, (g'.block t).any ∧ p.Valid := fun t ht => by
    have := h1 t ht
    rw [zero_add] at this
    exact this
  rcases generate_st hGood' hl' p (m0 + n) 0 (tot := ⟨g'.Ny, g'.Nz, []⟩) ⟨rfl, rfl⟩ with ⟨-, hA⟩ | ⟨k, hk, -, h5, -⟩
  swap
  · exact absurd (hany _ (by omega)) h5
  rcases generate_st hGood' hl' p m0 0 (tot := ⟨g'.Ny, g'.Nz, []⟩) ⟨rfl, rfl⟩ with ⟨-, hB⟩ | ⟨k, hk, -, h5, -⟩
  swap
  · exact absurd (hany _ (by omega)) h5
  rcases generate_st hGood' hl' p n (0 + m0) (tot := g'.ext ⟨g'.Ny, g'.Nz, []⟩ (g'.outs p 0 0 m0)) ⟨rfl, rfl⟩ with
    ⟨-, hC⟩ | ⟨k, hk, -, h5, -⟩
  swap
  · exact absurd (hany _ (by omega)) h5
  rw [hfr'.st] at hA hB
  refine ⟨glob, g', q', _, _, _, hinit, by rw [hA], by rw [hB], by rw [hB]; simp only; rw [hC], ?_⟩
  intro heq
  have e1 := ext_val? g' (g'.ext ⟨g'.Ny, g'.Nz, []⟩ (g'.outs p 0 0 m0)) p 0 (0 + m0) n 0 0 0 0 hn q1 q2 q3
  have e2 := ext_val? g' ⟨g'.Ny, g'.Nz, []⟩ p 0 0 (m0 + n) m0 0 0 0 (by omega) q1 q2 q3
  have hlen : (g'.ext ⟨g'.Ny, g'.Nz, []⟩ (g'.outs p 0 0 m0)).planes.length = m0 * g'.Nx := by
    unfold Gen.ext
    simp only [List.nil_append]
    exact (outs_shape g' p 0 0 m0).1
  rw [heq, hlen] at e1
  simp only [List.length_nil, zero_add, add_zero, zero_mul] at e1 e2
  have e3 := e1.symm.trans e2
  have e4 := congrFun (Option.some.inj e3) 0
  have hv := (hany 0 (by omega)).2
  rw [outAt_first hv hlog hz (lf := lf') rfl, outAt_first hv hlog hz (lf := lf') rfl] at e4
  have e5 := add_left_cancel (Fl.fin.inj e4)
  have e6 := hval 0 (by rw [zero_mul]; positivity) glob y lf' q' hgen
  have e7 := hval m0 hm1 glob y lf' q' hgen
  rw [hglob] at e6 e7
  apply hne
  rw [← e6, ← e7]
  rw [e5]
  ring

/-- Attaching a low-frequency model to constructor arguments without one. -/
theorem genInit_attach {env : GenEnv} {a : GenArgs} {g : Gen} {q : ℕ} (hnone : a.low = none) (h : genInit env a = (.ok g, q))
    {cfg : LFConfig} (hp : cfg.Pos) {lf : LowFreq} (hlf : lfInit cfg = .ok lf) :
    ∃ lf' q', genInit env { a with low := some cfg } = (.ok { g with low := some lf' }, q') := by
  obtain ⟨u1, u2, f1, f2, lf', hgen, -⟩ := generate_spec hp hlf env.glob env.globPos
  refine ⟨lf', env.globPos + lf.compN1 * lf.compN2, ?_⟩
  have e : genScales env { a with low := some cfg } = genScales env a := rfl
  unfold genInit at h ⊢
  rw [e]
  cases hs : genScales env a with
  | error e => rw [hs] at h; simp at h
  | ok r =>
    obtain ⟨K, L, T⟩ := r
    rw [hs] at h
    simp only at h ⊢
    split at h <;> try (simp at h; done)
    split at h
    · simp at h
    rename_i hsh
    rw [if_neg hsh]
    split at h
    · simp at h
    simp only [hnone] at h
    simp only [hlf, hgen]
    simp only [Prod.mk.injEq, Except.ok.injEq] at h ⊢
    exact ⟨by rw [← h.1], trivial⟩

/-- A low-frequency model for the box of `exampleArgs`: 64 km by 300 m, grid spacing 62.5 m along the wind, so that a block
of 500 m is 8 grid cells. -/
def exampleLow : LFConfig := ⟨0.6, 16000, 0.75, 500, 4, 0.01875, 10, 5⟩

/-- The hypotheses of `C59_low_frequency` and `C52_low_frequency` hold for a generator that exists: the example box with
the example low-frequency model, any environment whose stream is replaced by a suitable one, three blocks after two. -/
example (env : GenEnv) : ∃ γ g q f, exampleLow.Fits exampleArgs.d1 exampleArgs.d2 8 ∧ 2 * 8 < 2 ^ exampleLow.exp1 ∧
    exampleArgs.PosScales ∧ genInit (env.withStream γ) { exampleArgs with low := some exampleLow } = (.ok g, q) ∧
    (g.generate ⟨90, 11, 0.03, "LOG", none⟩ (2 + 3)).1 = .ok f := by
  have hp : exampleArgs.PosScales := by
    refine ⟨⟨by norm_num [exampleArgs], by norm_num [exampleArgs], by norm_num [exampleArgs]⟩, fun h => ?_, fun _ => ?_⟩
    · exact absurd h (by decide)
    · exact ⟨50, 3, rfl, rfl, by norm_num, by norm_num⟩
  have he : exampleArgs.PosEnergy := by
    refine ⟨by norm_num [exampleArgs], by norm_num [exampleArgs], fun _ e h => ?_⟩
    obtain rfl := Option.some.inj h
    norm_num
  have hpos : exampleLow.Pos := ⟨by norm_num [exampleLow], by norm_num [exampleLow], by norm_num [exampleLow]⟩
  obtain ⟨lf, hlf⟩ := (C67_total hpos).2
    (C71_defined _ (by norm_num [exampleLow]) (by norm_num [exampleLow]) (by rw [abs_of_pos] <;> norm_num [exampleLow]))
  obtain ⟨g0, hg0⟩ := genInit_exists env (a := exampleArgs) (Or.inl rfl) (L := 50) (T := 3) (e := 0.5) rfl rfl rfl
    (by norm_num [exampleArgs]) ⟨by norm_num [exampleArgs], by norm_num [exampleArgs], by norm_num [exampleArgs]⟩
    ⟨by norm_num, by norm_num⟩ rfl
  obtain ⟨lf', q', hg⟩ := genInit_attach rfl hg0 hpos hlf
  obtain ⟨K, L, T, hs, hf, hl, -, -, -, -, hk, -⟩ := genInit_ok hg
  have hK : g0.kernel.Valid := by
    have hz : (0 : ℝ) < 180 := by norm_num
    have : genScales env exampleArgs = .ok (.vk 50 (0.5 * 1.7 ^ 2 * (180 : ℝ) ^ (-2 / 3 : ℝ)), 50, 3) := by
      unfold genScales
      rw [if_neg (by decide), if_neg (by decide)]
      simp only [exampleArgs, heightPower_pos hz, if_true]
    have hs' : genScales env exampleArgs = .ok (K, L, T) := hs
    rw [this] at hs'
    simp only [Except.ok.injEq, Prod.mk.injEq] at hs'
    have hk' : g0.kernel = K := hk
    rw [hk', ← hs'.1]
    exact ⟨by norm_num, by positivity⟩
  have hgood := genInit_good hp hg0
  obtain ⟨γ, hγ⟩ := exists_stream hgood (genInit_regular hp.1 hg0) hK (by
    obtain ⟨K, L, T, hs, -, -, -, -, -, -, hk, -⟩ := genInit_ok hg0
    rw [hk]; exact genScales_energetic he hs)
  have hst := genInit_stream hg γ
  have hv : (⟨90, 11, 0.03, "LOG", none⟩ : ProfileArgs).Valid := ⟨Or.inl rfl, by norm_num, by norm_num, by norm_num⟩
  set g : Gen := { g0 with low := some lf' } with hgdef
  have hf' : (g.withStream γ).Fresh := hf
  have hrun := run_ok (g := g.withStream γ) hgood hl (fun j => hγ j) [(2 + 3, ⟨90, 11, 0.03, "LOG", none⟩)]
    (by simpa using hv) 0 ⟨g.Ny, g.Nz, []⟩ ⟨rfl, rfl⟩
  rw [show (g.withStream γ).st 0 ⟨g.Ny, g.Nz, []⟩ = g.withStream γ from hf'.st] at hrun
  obtain ⟨f, hfin⟩ := hrun ((g.withStream γ).generate ⟨90, 11, 0.03, "LOG", none⟩ (2 + 3)).1 (by simp [Gen.run])
  refine ⟨γ, _, _, f, ⟨hpos, ?_, ?_, ?_, ?_, ?_, ?_, ?_, ?_⟩, ?_, hp, hst, hfin⟩ <;> norm_num [exampleLow, exampleArgs]

end
end Verif
