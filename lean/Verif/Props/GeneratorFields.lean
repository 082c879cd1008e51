import Verif.Props.Generator
import Verif.Props.ParamVector

/-!
# The fluctuation field generator: values of the generated field (C55 - C60, C76)
-/

namespace Verif
open Fl

noncomputable section
open Classical

/-! ### C57 -/

theorem powerLaw_fin {z zref uref a : ℝ} (hz : 0 ≤ z) (hr : 0 < zref) (ha : 0 ≤ a) :
    powerLaw z zref uref a = fin (uref * (z / zref) ^ a) := by
  unfold powerLaw
  rw [fin_div_fin _ hr.ne']
  rcases ha.eq_or_lt with rfl | ha
  · rcases hz.eq_or_lt with rfl | hz
    · rw [zero_div, pow_fin_zero_zero, fin_mul_fin, Real.rpow_zero]
    · rw [pow_fin _ (div_pos hz hr), fin_mul_fin]
  · rw [pow_nonneg_fin (by positivity) ha, fin_mul_fin]

theorem logLaw_fin {z z0 zref uref : ℝ} (hz : 0 ≤ z) (h0 : 0 < z0) (hr : 0 < zref) (hne : zref ≠ z0) :
    logLaw z z0 zref uref = fin (uref * Real.log (z / z0 + 1) / Real.log (zref / z0)) := by
  unfold logLaw
  have h1 : 0 < z / z0 + 1 := by positivity
  have h2 : Real.log (zref / z0) ≠ 0 := by
    refine Real.log_ne_zero_of_pos_of_ne_one (by positivity) ?_
    intro h
    exact hne ((div_eq_one_iff_eq h0.ne').1 h)
  rw [fin_div_fin _ h0.ne', fin_div_fin _ h0.ne', fin_add_fin, log_fin h1, log_fin (by positivity), fin_mul_fin,
    fin_div_fin _ h2]

/-- **C57.**  The power law is the reference wind at the reference height and increases with height. -/
theorem C57_power {zref uref a : ℝ} (hr : 0 < zref) (hu : 0 < uref) (ha : 0 ≤ a) :
    powerLaw zref zref uref a = fin uref ∧
    (∀ z, 0 ≤ z → ∃ v, powerLaw z zref uref a = fin v ∧ 0 ≤ v) ∧
    ∀ z z', 0 ≤ z → z ≤ z' → (powerLaw z zref uref a).toReal ≤ (powerLaw z' zref uref a).toReal := by
  refine ⟨?_, fun z hz => ⟨_, powerLaw_fin hz hr ha, by positivity⟩, ?_⟩
  · rw [powerLaw_fin hr.le hr ha, div_self hr.ne', Real.one_rpow, mul_one]
  · intro z z' hz hzz
    rw [powerLaw_fin hz hr ha, powerLaw_fin (hz.trans hzz) hr ha, toReal_fin, toReal_fin]
    have : (z / zref) ^ a ≤ (z' / zref) ^ a :=
      Real.rpow_le_rpow (by positivity) (div_le_div_of_nonneg_right hzz hr.le) ha
    exact mul_le_mul_of_nonneg_left this hu.le

/-- **C57.**  The log law vanishes at the ground and increases with height; at the reference height it is strictly larger than
the reference wind. -/
theorem C57_log {z0 zref uref : ℝ} (h0 : 0 < z0) (hr : z0 < zref) (hu : 0 < uref) :
    logLaw 0 z0 zref uref = fin 0 ∧
    (∀ z z', 0 ≤ z → z < z' → (logLaw z z0 zref uref).toReal < (logLaw z' z0 zref uref).toReal) ∧
    (∀ z, 0 ≤ z → (logLaw z z0 zref uref).IsFin) ∧
    logLaw zref z0 zref uref = fin (uref * Real.log (zref / z0 + 1) / Real.log (zref / z0)) ∧
    uref < (logLaw zref z0 zref uref).toReal := by
  have hrp : 0 < zref := h0.trans hr
  have hl : 0 < Real.log (zref / z0) := Real.log_pos ((one_lt_div h0).2 hr)
  refine ⟨?_, ?_, ?_, logLaw_fin hrp.le h0 hrp hr.ne', ?_⟩
  · rw [logLaw_fin (le_refl _) h0 hrp hr.ne']; simp
  · intro z z' hz hzz
    rw [logLaw_fin hz h0 hrp hr.ne', logLaw_fin (hz.trans hzz.le) h0 hrp hr.ne', toReal_fin, toReal_fin]
    have : Real.log (z / z0 + 1) < Real.log (z' / z0 + 1) := by
      refine Real.log_lt_log (by positivity) ?_
      have := div_lt_div_of_pos_right hzz h0
      linarith
    exact div_lt_div_of_pos_right (mul_lt_mul_of_pos_left this hu) hl
  · intro z hz
    rw [logLaw_fin hz h0 hrp hr.ne']; trivial
  · rw [logLaw_fin hrp.le h0 hrp hr.ne', toReal_fin, lt_div_iff₀ hl]
    refine mul_lt_mul_of_pos_left ?_ hu
    exact Real.log_lt_log (by positivity) (by linarith)

/-- **C57.**  The validation lets a reference height equal to or below the roughness length pass; the log law is then infinite
above the ground, or negative. -/
theorem C57_log_degenerate {z0 zref uref z : ℝ} (h0 : 0 < z0) (hr : 0 < zref) (hu : 0 < uref) (hz : 0 < z) :
    (zref = z0 → logLaw z z0 zref uref = pinf ∧ logLaw 0 z0 zref uref = nan) ∧
    (zref < z0 → (logLaw z z0 zref uref).toReal < 0) := by
  constructor
  · rintro rfl
    unfold logLaw
    have hl : 0 < Real.log (z / zref + 1) := Real.log_pos (by have := div_pos hz h0; linarith)
    rw [fin_div_fin _ h0.ne', fin_div_fin _ h0.ne', fin_div_fin _ h0.ne', div_self h0.ne', fin_add_fin, fin_add_fin,
      log_fin (by positivity), log_fin (by positivity), log_fin (by positivity), zero_div, zero_add, Real.log_one, fin_mul_fin,
      fin_mul_fin, fin_div_zero, fin_div_zero, mul_zero]
    exact ⟨infMul_pos (by positivity), infMul_zero⟩
  · intro h
    rw [logLaw_fin hz.le h0 hr h.ne, toReal_fin]
    have hl : Real.log (zref / z0) < 0 := Real.log_neg (by positivity) ((div_lt_one h0).2 h)
    refine div_neg_of_pos_of_neg (mul_pos hu (Real.log_pos ?_)) hl
    have := div_pos hz h0
    linarith

example : logLaw 0 0.01 100 10 = fin 0 := (C57_log (by norm_num) (by norm_num) (by norm_num)).1

/-! ### C58 -/

/-- A successful call on an object with `j` blocks drawn. -/
theorem generate_values {env : GenEnv} {a : GenArgs} {g : Gen} {q : ℕ} (ha : a.PosScales) (h : genInit env a = (.ok g, q))
    (cs : List (ℕ × ProfileArgs)) (p : ProfileArgs) (n : ℕ) {f : Arr Fl}
    (hf : ((g.run cs).2.generate p n).1 = .ok f) :
    ∃ j, (g.run cs).2 = g.st j (g.run cs).2.total ∧ (∀ t < n, (g.block (j + t)).any ∧ p.Valid) ∧
      f = ((g.run cs).2.generate p n).2.total ∧
      ∀ i < n, ∀ r < g.Nx, ∀ b < g.Ny, ∀ c < g.Nz,
        f.val? ((g.run cs).2.total.planes.length + (i * g.Nx + r)) b c = some (g.outAt p i (j + i) r b c) := by
  obtain ⟨kernel, L, T, hs, hfr, hl, -⟩ := genInit_ok h
  have hg := genInit_good ha h
  obtain ⟨j, k', tot', e, s, -⟩ := run_st hg hl cs 0 0 ⟨g.Ny, g.Nz, []⟩
    ⟨rfl, rfl, by simp, fun p hp => by cases hp⟩
  rw [hfr.st] at e
  rw [e] at hf ⊢
  rcases generate_st hg hl p n j ⟨s.1, s.2.1⟩ with ⟨h1, h2⟩ | ⟨k, hk, h1, -, h2⟩
  · rw [h2] at hf ⊢
    obtain rfl := Except.ok.inj hf
    refine ⟨j, rfl, h1, rfl, ?_⟩
    intro i hi r hr b hb c hc
    change (g.ext tot' (g.outs p 0 j n)).val? (tot'.planes.length + (i * g.Nx + r)) b c = _
    rw [ext_val? g tot' p 0 j n i r b c hi hr hb hc, Nat.zero_add]
  · rw [h2] at hf; cases hf

/-- The same object without a low-frequency model. -/
def Gen.noLow (g : Gen) : Gen := { g with low := none }

/-- **C58.**  One call on a fresh object with a low-frequency model attached, compared with the same call on the same object
without it: block `i`, plane `r` differs by the two interpolated horizontal components at `x = i*Lx + r*Lx/Nx`, the same at
all heights; the vertical component is the same. -/
theorem C58_addition {env : GenEnv} {a : GenArgs} {g : Gen} {q : ℕ} (ha : a.PosScales) (h : genInit env a = (.ok g, q))
    {lf : LowFreq} (hlow : g.low = some lf) (p : ProfileArgs) (n : ℕ) {f : Arr Fl} (hf : (g.generate p n).1 = .ok f) :
    ∃ u1 u2 f', lf.u = some (u1, u2) ∧ (g.noLow.generate p n).1 = .ok f' ∧ f.planes.length = f'.planes.length ∧
      ∀ i < n, ∀ r < g.Nx, ∀ b < g.Ny,
        let x := (i : ℝ) * g.d1 + r * (g.d1 / g.Nx)
        let y := (lf.userL2 - g.d2) / 2 + b * (g.d2 / g.Ny)
        let low1 := interpAt (lfCoords lf.userL1 lf.userN1) (lfCoords lf.userL2 lf.userN2) u1 x y
        let low2 := interpAt (lfCoords lf.userL1 lf.userN1) (lfCoords lf.userL2 lf.userN2) u2 x y
        ∀ c < g.Nz, ∃ v v' : Fin 3 → Fl, f.val? (i * g.Nx + r) b c = some v ∧ f'.val? (i * g.Nx + r) b c = some v' ∧
          v 0 = v' 0 + fin low1 ∧ v 1 = v' 1 + fin low2 ∧ v 2 = v' 2 := by
  obtain ⟨kernel, L, T, hs, hfr, hl, -⟩ := genInit_ok h
  have hg := genInit_good ha h
  obtain ⟨⟨u1, u2⟩, hu⟩ := hl lf hlow
  have hg' : g.noLow.Good := hg
  have hl' : g.noLow.LowReady := fun lf h => by cases h
  have hfr' : g.noLow.Fresh := hfr
  have hN : (g.Nx : ℝ) ≠ 0 := by unfold Gen.Nx; positivity
  rw [← hfr.st] at hf
  rcases generate_st hg hl p n 0 (tot := ⟨g.Ny, g.Nz, []⟩) ⟨rfl, rfl⟩ with ⟨h1, h2⟩ | ⟨k, hk, h1, -, h2⟩
  swap
  · rw [h2] at hf; cases hf
  rw [h2] at hf
  obtain rfl := Except.ok.inj hf
  rcases generate_st hg' hl' p n 0 (tot := ⟨g.Ny, g.Nz, []⟩) ⟨rfl, rfl⟩ with ⟨h3, h4⟩ | ⟨k, hk, h3, h5, h4⟩
  swap
  · exact absurd (h1 k hk) h5
  have hst : g.noLow.st 0 ⟨g.Ny, g.Nz, []⟩ = g.noLow := hfr'.st
  rw [hst] at h4
  refine ⟨u1, u2, g.noLow.ext ⟨g.Ny, g.Nz, []⟩ (g.noLow.outs p 0 0 n), hu, by rw [h4], ?_, ?_⟩
  · simp only [Gen.ext, List.nil_append]
    rw [(outs_shape g p 0 0 n).1, (outs_shape g.noLow p 0 0 n).1]; rfl
  · intro i hi r hr b hb x y low1 low2 c hc
    have e1 := ext_val? g ⟨g.Ny, g.Nz, []⟩ p 0 0 n i r b c hi hr hb hc
    have e2 := ext_val? g.noLow ⟨g.Ny, g.Nz, []⟩ p 0 0 n i r b c hi hr hb hc
    simp only [List.length_nil, zero_add] at e1 e2
    refine ⟨_, _, e1, e2, ?_⟩
    have hx : ((i : ℝ) + (r : ℝ) / g.Nx) * g.d1 = x := by simp only [x]; field_simp
    have hy : lf.userL2 / 2 - g.d2 / 2 + (b : ℝ) * (g.d2 / g.Ny) = y := by simp only [y]; ring
    have hlowAt : g.lowAt i r b = (low1, low2) := by
      unfold Gen.lowAt
      rw [hlow]
      simp only
      rw [hu]
      simp only
      rw [hx, hy]
    unfold Gen.outAt
    rw [hlow, hlowAt]
    have hn : g.noLow.low = none := rfl
    simp only [hn, reduceCtorEq, if_false, if_true, add_fin_zero]
    exact ⟨rfl, rfl, rfl⟩

/-! ### C55 for the accumulated field -/

/-- **C55.**  In the field returned by a call on any history (no low-frequency model), each block minus the mean wind at its
height is a field of mean square one over all points and components. -/
theorem C55_field {env : GenEnv} {a : GenArgs} {g : Gen} {q : ℕ} (ha : a.PosScales) (h : genInit env a = (.ok g, q))
    (hlow : a.low = none) (cs : List (ℕ × ProfileArgs)) (p : ProfileArgs) (n : ℕ) {f : Arr Fl}
    (hf : ((g.run cs).2.generate p n).1 = .ok f) :
    ∀ i < n, ∃ v : ℕ → ℕ → ℕ → Fin 3 → ℝ,
      (∀ r < g.Nx, ∀ b < g.Ny, ∀ c < g.Nz, ∃ w, f.val? ((g.run cs).2.total.planes.length + (i * g.Nx + r)) b c = some w ∧
        w 0 = fin (v r b c 0) + (if p.ptype = "LOG" then logLaw (c * (a.d3 / 2 ^ a.l3)) p.z0 p.zref p.uref
          else powerLaw (c * (a.d3 / 2 ^ a.l3)) p.zref p.uref (p.plexp.getD 0)) ∧
        w 1 = fin (v r b c 1) ∧ w 2 = fin (v r b c 2)) ∧
      (∑ r ∈ Finset.range g.Nx, ∑ b ∈ Finset.range g.Ny, ∑ c ∈ Finset.range g.Nz, ∑ k, v r b c k ^ 2) /
        (g.Nx * g.Ny * g.Nz * 3 : ℕ) = 1 := by
  intro i hi
  obtain ⟨j, -, hany, -, hval⟩ := generate_values ha h cs p n hf
  obtain ⟨-, -, -, -, -, -, ⟨-, -, d3⟩, ⟨-, -, l3⟩, -, -, -, -, -, -, hnone, -⟩ := genInit_ok h
  have hl := hnone hlow
  have hb : g.block (j + i) = Arr.ofFn g.Nx g.Ny g.Nz fun a b c i' => (g.block (j + i)).entry a b c i' := by
    conv_lhs => unfold Gen.block
    refine ofFn_congr fun a ha b hb c hc => ?_
    funext i'
    unfold Gen.block
    rw [ofFn_entry _ ha hb hc]
  refine ⟨fun a b c k => (g.block (j + i)).entry a b c k / (g.block (j + i)).sd, ?_, ?_⟩
  · intro r' hr' b hb' c hc
    refine ⟨_, hval i hi r' hr' b hb' c hc, ?_⟩
    have hz : ((g.Nz - 1 : ℕ) : ℝ) = 2 ^ g.l3 := by unfold Gen.Nz; simp
    unfold Gen.outAt Gen.profileAt
    rw [hl, hz, d3, l3]
    simp only [if_true, add_fin_zero]
    exact ⟨trivial, trivial, trivial⟩
  · have hm := (sd_mean_square (n1 := g.Nx) (n2 := g.Ny) (n3 := g.Nz) (fun a b c i' => (g.block (j + i)).entry a b c i')
      (by rw [← hb]; exact (hany i hi).1)).2
    rw [← hb] at hm
    exact hm

/-! ### C56 -/

/-- Two objects that behave alike although their kernels differ. -/
structure Gen.Alike (g g' : Gen) : Prop where
  nx : g'.Nx = g.Nx
  ny : g'.Ny = g.Ny
  nz : g'.Nz = g.Nz
  any : ∀ j, (g'.block j).any ↔ (g.block j).any
  out : ∀ p i j a b c, a < g.Nx → b < g.Ny → c < g.Nz → g'.outAt p i j a b c = g.outAt p i j a b c

theorem Gen.Alike.outs {g g' : Gen} (h : g.Alike g') (p : ProfileArgs) (i j k : ℕ) : g'.outs p i j k = g.outs p i j k := by
  unfold Gen.outs
  have e : ∀ t, (Arr.ofFn g'.Nx g'.Ny g'.Nz (g'.outAt p (i + t) (j + t))).planes =
      (Arr.ofFn g.Nx g.Ny g.Nz (g.outAt p (i + t) (j + t))).planes := by
    intro t
    rw [h.nx, h.ny, h.nz, ofFn_congr fun a ha b hb c hc => h.out p (i + t) (j + t) a b c ha hb hc]
  simp only [e]

theorem Gen.Alike.run {g g' : Gen} (h : g.Alike g') (hg : g.Good) (hg' : g'.Good) (hl : g.LowReady) (hl' : g'.LowReady)
    (cs : List (ℕ × ProfileArgs)) : ∀ (j : ℕ) (tot : Arr Fl), tot.n2 = g.Ny ∧ tot.n3 = g.Nz →
      (Gen.run cs (g.st j tot)).1 = (Gen.run cs (g'.st j tot)).1 ∧
      (Gen.run cs (g.st j tot)).2.total = (Gen.run cs (g'.st j tot)).2.total := by
  induction cs with
  | nil => intro j tot _; exact ⟨rfl, rfl⟩
  | cons c cs ih =>
    obtain ⟨n, p⟩ := c
    intro j tot ht
    have ht' : tot.n2 = g'.Ny ∧ tot.n3 = g'.Nz := by rw [h.ny, h.nz]; exact ht
    have hext : ∀ l, g'.ext tot l = g.ext tot l := fun l => by unfold Gen.ext; rw [h.ny, h.nz]
    rcases generate_st hg hl p n j ht with ⟨h1, h2⟩ | ⟨k, hk, h1, h3, h2⟩
    · rcases generate_st hg' hl' p n j ht' with ⟨h4, h5⟩ | ⟨k, hk, h4, h6, h5⟩
      · unfold Gen.run
        rw [h2, h5, hext, h.outs]
        have := ih (j + n) (g.ext tot (g.outs p 0 j n)) ⟨rfl, rfl⟩
        simp only
        exact ⟨by rw [this.1], this.2⟩
      · exact absurd ⟨(h.any _).2 (h1 k hk).1, (h1 k hk).2⟩ h6
    · rcases generate_st hg' hl' p n j ht' with ⟨h4, h5⟩ | ⟨k', hk', h4, h6, h5⟩
      · exact absurd ⟨(h.any _).1 (h4 k hk).1, (h4 k hk).2⟩ h3
      · have hkk : k = k' := by
          rcases lt_trichotomy k k' with hlt | heq | hlt
          · exact absurd ⟨(h.any _).1 (h4 k hlt).1, (h4 k hlt).2⟩ h3
          · exact heq
          · exact absurd ⟨(h.any _).2 (h1 k' hlt).1, (h1 k' hlt).2⟩ h6
        subst hkk
        unfold Gen.run
        rw [h2, h5, hext, h.outs]
        have := ih (j + k + 1) (g.ext tot (g.outs p 0 j k)) ⟨rfl, rfl⟩
        simp only
        exact ⟨by rw [this.1], this.2⟩

theorem vfSample_smul {n1 n2 n3 : ℕ} [NeZero n1] [NeZero n2] [NeZero n3] {S S' : Box n1 n2 n3 → Matrix (Fin 3) (Fin 3) ℂ}
    {s : ℝ} (h : ∀ k i l, S' k i l = (s : ℂ) * S k i l) (norm : ℝ) (noise : Box n1 n2 n3 → Fin 3 → ℝ) (x : Box n1 n2 n3)
    (i : Fin 3) : vfSample S' norm noise x i = s * vfSample S norm noise x i := by
  rw [vfSample_eq, vfSample_eq]
  have e : vfY S' noise i = fun k => (s : ℂ) * vfY S noise i k + ((0 : ℝ) : ℂ) * vfY S noise i k := by
    funext k
    unfold vfY spectrumHalf
    rw [Complex.ofReal_zero, zero_mul, add_zero, Finset.mul_sum]
    refine Finset.sum_congr rfl fun l _ => ?_
    rw [h]; ring
  rw [e, irfftn_linear]
  ring

theorem constR_scale {L E0 E1 kk : ℝ} (h0 : 0 < E0) (h1 : 0 ≤ E1) :
    constR L E1 kk = Real.sqrt (E1 / E0) * constR L E0 kk := by
  unfold constR
  rw [← Real.sqrt_mul (by positivity)]
  congr 1
  field_simp

/-- Replacing the energy of a kernel. -/
def GenKernel.setE0 (E : ℝ) : GenKernel → GenKernel
  | .vk L _ => .vk L E
  | .mann hyp L _ G => .mann hyp L E G
  | .nn net L _ G h => .nn net L E G h

/-- The energy of a kernel. -/
def GenKernel.E0 : GenKernel → ℝ
  | .vk _ E => E
  | .mann _ _ E _ => E
  | .nn _ _ E _ _ => E

theorem GenKernel.eval_setE0 {K : GenKernel} (hK : K.Valid) (h0 : 0 < K.E0) {E : ℝ} (hE : 0 ≤ E) (k : K3) (i j : Fin 3) :
    times1j ((K.setE0 E).eval k) i j = (Real.sqrt (E / K.E0) : ℂ) * times1j (K.eval k) i j := by
  cases K with
  | vk L E0 =>
    simp only [GenKernel.setE0, GenKernel.eval, GenKernel.E0] at *
    rw [vk_entry hK.1 hE, vk_entry hK.1 h0.le, constR_scale h0 hE]
    push_cast
    ring
  | mann hyp L E0 G =>
    simp only [GenKernel.setE0, GenKernel.eval, GenKernel.E0] at *
    unfold mannKernel
    obtain ⟨b, hb⟩ : ∃ b, mannBeta hyp L G k = fin b := ⟨_, mannBeta_eq G hK.1 hK.2.2 k⟩
    rw [hb]
    unfold times1j
    rw [shearKernel_fin hK.1 hE, shearKernel_fin hK.1 h0.le, constR_scale h0 hE]
    simp only [toReal_fin]
    push_cast
    ring
  | nn net L E0 G h =>
    simp only [GenKernel.setE0, GenKernel.eval, GenKernel.E0] at *
    unfold nnKernel
    obtain ⟨b, hb⟩ := nnBeta_fin hK.2.2.1 G hK.2.2.2 k
    rw [hb]
    unfold times1j
    rw [shearKernel_fin hK.1 hE, shearKernel_fin hK.1 h0.le, constR_scale h0 hE]
    simp only [toReal_fin]
    push_cast
    ring

theorem flat_smul (n1 n2 n3 : ℕ) (f : ℕ → ℕ → ℕ → Fin 3 → ℝ) {s : ℝ} (hs : 0 < s) :
    (Arr.ofFn n1 n2 n3 fun a b c i => s * f a b c i).sd = s * (Arr.ofFn n1 n2 n3 f).sd := by
  unfold Arr.sd
  rw [flat_length, flat_length, flat_sum _ fun x => x ^ 2, flat_sum _ fun x => x ^ 2]
  simp only [mul_pow, ← Finset.mul_sum]
  rw [mul_div_assoc, Real.sqrt_mul (by positivity), Real.sqrt_sq hs.le]

/-- Changing the energy of the kernel of an object does not change its behaviour. -/
theorem alike_setE0 {g : Gen} (hg : g.Good) (hK : g.kernel.Valid) (h0 : 0 < g.kernel.E0) {E : ℝ} (hE : 0 < E) :
    g.Alike { g with kernel := g.kernel.setE0 E } := by
  set g' : Gen := { g with kernel := g.kernel.setE0 E } with hgdef
  set s := Real.sqrt (E / g.kernel.E0) with hs
  have hsp : 0 < s := Real.sqrt_pos.2 (div_pos hE h0)
  obtain ⟨e1, e2, e3, p1, p2, p3, -⟩ := hg.shapes
  have hsample : ∀ x a b c i, a < g.shape1.toNat → b < g.shape2.toNat → c < g.shape3.toNat →
      (g'.sample x).entry a b c i = s * (g.sample x).entry a b c i := by
    intro x a b c i ha hb hc
    have hd : 0 < g.shape1.toNat ∧ 0 < g.shape2.toNat ∧ 0 < g.shape3.toNat := ⟨p1, p2, p3⟩
    have hd' : 0 < g'.shape1.toNat ∧ 0 < g'.shape2.toNat ∧ 0 < g'.shape3.toNat := hd
    have : NeZero g.shape1.toNat := ⟨p1.ne'⟩
    have : NeZero g.shape2.toNat := ⟨p2.ne'⟩
    have : NeZero g.shape3.toNat := ⟨p3.ne'⟩
    unfold Gen.sample
    simp only
    rw [dif_pos hd, dif_pos hd', ofFn_entry _ ha hb hc]
    refine (ofFn_entry _ ha hb hc i).trans ?_
    refine vfSample_smul (n1 := g.shape1.toNat) (n2 := g.shape2.toNat) (n3 := g.shape3.toNat) ?_ _ _ _ _
    intro k i l
    exact GenKernel.eval_setE0 hK h0 hE.le _ i l
  have hblock : ∀ j, g'.block j = Arr.ofFn g.Nx g.Ny g.Nz fun a b c i => s * (g.block j).entry a b c i := by
    intro j
    change Arr.ofFn g.Nx g.Ny g.Nz (fun a b c i => (g'.sample (g.window j)).entry (g.nb.toNat + a) (g.my.toNat + b) c i) = _
    refine ofFn_congr fun a ha b hb c hc => ?_
    funext i
    have hx := blendExt_nonneg g.bn
    obtain ⟨q1, q2, q3⟩ := hg
    rw [hsample _ _ _ _ _ (by omega) (by omega) (by omega)]
    congr 1
    unfold Gen.block
    rw [ofFn_entry _ ha hb hc]
  have hself : ∀ j, g.block j = Arr.ofFn g.Nx g.Ny g.Nz fun a b c i => (g.block j).entry a b c i := by
    intro j
    conv_lhs => unfold Gen.block
    refine ofFn_congr fun a ha b hb c hc => ?_
    funext i
    unfold Gen.block
    rw [ofFn_entry _ ha hb hc]
  have hsd : ∀ j, (g'.block j).sd = s * (g.block j).sd := by
    intro j
    rw [hblock, flat_smul _ _ _ _ hsp, ← hself]
  refine ⟨rfl, rfl, rfl, ?_, ?_⟩
  · intro j
    rw [hblock]
    conv_rhs => rw [hself]
    rw [any_ofFn, any_ofFn]
    constructor
    · rintro ⟨a, ha, b, hb, c, hc, i, h⟩
      exact ⟨a, ha, b, hb, c, hc, i, right_ne_zero_of_mul h⟩
    · rintro ⟨a, ha, b, hb, c, hc, i, h⟩
      exact ⟨a, ha, b, hb, c, hc, i, mul_ne_zero hsp.ne' h⟩
  · intro p i j a b c ha hb hc
    funext k
    have : (g'.block j).entry a b c k / (g'.block j).sd = (g.block j).entry a b c k / (g.block j).sd := by
      rw [hsd, hblock, ofFn_entry _ ha hb hc, mul_div_mul_left _ _ hsp.ne']
    unfold Gen.outAt
    simp only
    rw [this]
    rfl

theorem heightPower_pos {z : ℝ} (hz : 0 < z) : heightPower z = .ok (z ^ (-2 / 3 : ℝ)) := by
  unfold heightPower; rw [if_neg hz.ne']

theorem genScales_energy {env : GenEnv} {a a' : GenArgs} (haa : ∃ u e, a' = { a with ustar := u, energy := e })
    {K K' : GenKernel} {L L' T T' : ℝ} (h : genScales env a = .ok (K, L, T)) (h' : genScales env a' = .ok (K', L', T'))
    (hz : 0 < a.zref) (hu : a.ustar ≠ 0) (hu' : a'.ustar ≠ 0) (he : ∀ e, a.energy = some e → 0 < e)
    (he' : ∀ e, a'.energy = some e → 0 < e) :
    L' = L ∧ T' = T ∧ K' = K.setE0 K'.E0 ∧ 0 < K.E0 ∧ 0 < K'.E0 := by
  obtain ⟨u, e, rfl⟩ := haa
  have hzp : 0 < a.zref ^ (-2 / 3 : ℝ) := Real.rpow_pos_of_pos hz _
  have hu2 : 0 < a.ustar ^ 2 := by positivity
  have hu2' : 0 < u ^ 2 := by simp only at hu'; positivity
  unfold genScales at h h'
  simp only at h h'
  by_cases h1 : a.model ∉ ["DRD", "VK", "Mann"]
  · rw [if_pos h1] at h; cases h
  rw [if_neg h1] at h h'
  by_cases h2 : a.model = "DRD"
  · rw [if_pos h2] at h h'
    cases hp : a.path with
    | none => rw [hp] at h; cases h
    | some f =>
    rw [hp] at h h'
    simp only at h h'
    cases hm : loadModel env.hyp env.netSeed env.netNoise f env.fs with
    | error e => rw [hm] at h; cases h
    | ok ops =>
    rw [hm] at h h'
    simp only [heightPower_pos hz] at h h'
    cases hk : ops.kind with
    | taunet net =>
      rw [hk] at h h'
      simp only [Except.ok.injEq, Prod.mk.injEq] at h h'
      obtain ⟨rfl, rfl, rfl⟩ := h
      obtain ⟨rfl, rfl, rfl⟩ := h'
      have hM : 0 < 4 * Real.pi * ops.expScalesValue.1 ^ (-5 / 3 : ℝ) * ops.expScalesValue.2.2 := by
        unfold OPS.expScalesValue
        simp only
        have := Real.rpow_pos_of_pos (Real.exp_pos ops.logL) (-5 / 3 : ℝ)
        positivity
      refine ⟨rfl, rfl, rfl, ?_, ?_⟩ <;> simp only [GenKernel.E0] <;> positivity
    | _ => rw [hk] at h; cases h
  · rw [if_neg h2] at h h'
    cases hl : a.length with
    | none => rw [hl] at h; cases h
    | some l =>
    cases ht : a.time with
    | none => rw [hl, ht] at h; cases h
    | some t =>
    cases hn : a.energy with
    | none => rw [hl, ht, hn] at h; cases h
    | some e0 =>
    cases e with
    | none => rw [hl, ht] at h'; cases h'
    | some e1 =>
    rw [hl, ht, hn] at h
    rw [hl, ht] at h'
    simp only [heightPower_pos hz, Except.ok.injEq, Prod.mk.injEq] at h h'
    have p0 := he e0 hn
    have p1 := he' e1 rfl
    obtain ⟨rfl, rfl, rfl⟩ := h
    obtain ⟨rfl, rfl, rfl⟩ := h'
    refine ⟨rfl, rfl, ?_, ?_, ?_⟩ <;> by_cases hv : a.model = "VK" <;> simp only [hv, if_true, if_false] <;>
      first | rfl | (simp only [GenKernel.E0]; positivity)

/-- The constructor uses the energy scale and the friction velocity for the kernel only. -/
theorem genInit_kernel {env : GenEnv} {a a' : GenArgs} (haa : ∃ u e, a' = { a with ustar := u, energy := e })
    {g : Gen} {q : ℕ} (h : genInit env a = (.ok g, q)) {K K' : GenKernel} {L T : ℝ} (hs : genScales env a = .ok (K, L, T))
    (hs' : genScales env a' = .ok (K', L, T)) : genInit env a' = (.ok { g with kernel := K' }, q) := by
  obtain ⟨u, e, rfl⟩ := haa
  unfold genInit at h ⊢
  rw [hs] at h
  rw [hs']
  simp only at h ⊢
  split at h <;> try (simp at h; done)
  rename_i nb my mz h1 h2 h3
  split at h
  · simp at h
  rename_i hc
  rw [if_neg hc]
  split at h
  · simp at h
  rename_i rf hrf
  cases hl : a.low with
  | none =>
    rw [hl] at h
    simp only [Prod.mk.injEq, Except.ok.injEq] at h ⊢
    obtain ⟨rfl, rfl⟩ := h
    exact ⟨rfl, rfl⟩
  | some cfg =>
    rw [hl] at h
    simp only at h ⊢
    cases hi : lfInit cfg with
    | error e => rw [hi] at h; simp at h
    | ok lf =>
      rw [hi] at h
      simp only at h ⊢
      rcases hr : lf.generate env.glob env.globPos with ⟨r, lf', pos⟩
      rw [hr] at h
      cases r with
      | error e => simp at h
      | ok x =>
        simp only [Prod.mk.injEq, Except.ok.injEq] at h ⊢
        obtain ⟨rfl, rfl⟩ := h
        exact ⟨rfl, rfl⟩

/-- **C56.**  Two generators built from arguments that differ only in the energy scale and the friction velocity (both
positive) return the same results on every history of calls, and accumulate the same field.  (Kernels in the documented
range; `g.kernel.Valid` holds for VK and for Mann with a positive hypergeometric function, and for a network that does not
map a non-zero wavevector to zero.) -/
theorem C56_energy_invariant {env : GenEnv} {a a' : GenArgs} (haa : ∃ u e, a' = { a with ustar := u, energy := e })
    {g g' : Gen} {q q' : ℕ} (ha : a.PosScales) (h : genInit env a = (.ok g, q)) (h' : genInit env a' = (.ok g', q'))
    (hz : 0 < a.zref) (hu : a.ustar ≠ 0) (hu' : a'.ustar ≠ 0) (he : ∀ e, a.energy = some e → 0 < e)
    (he' : ∀ e, a'.energy = some e → 0 < e) (hK : g.kernel.Valid) (cs : List (ℕ × ProfileArgs)) :
    (g.run cs).1 = (g'.run cs).1 ∧ (g.run cs).2.total = (g'.run cs).2.total := by
  obtain ⟨K, L, T, hs, hf, hl, -, -, -, -, hk, -⟩ := genInit_ok h
  obtain ⟨K', L', T', hs', -, -, -, -, -, -, hk', -⟩ := genInit_ok h'
  have hg := genInit_good ha h
  obtain ⟨rfl, rfl, e, p, p'⟩ := genScales_energy haa hs hs' hz hu hu' he he'
  have := genInit_kernel haa h hs hs'
  rw [h', Prod.mk.injEq, Except.ok.injEq] at this
  obtain ⟨rfl, -⟩ := this
  subst hk
  have hal := alike_setE0 hg hK p p'
  rw [← e] at hal
  have hlow : Gen.LowReady { g with kernel := K' } := hl
  have hgood : Gen.Good { g with kernel := K' } := hg
  have hr := hal.run hg hgood hl hlow cs 0 ⟨g.Ny, g.Nz, []⟩ ⟨rfl, rfl⟩
  have hf' : Gen.Fresh { g with kernel := K' } := hf
  have e1 := hf.st
  have e2 := hf'.st
  rw [e1] at hr
  have e3 : Gen.st { g with kernel := K' } 0 ⟨g.Ny, g.Nz, []⟩ = { g with kernel := K' } := e2
  rw [e3] at hr
  exact hr

/-- Both generators of `C56_energy_invariant` exist: the example of C49 and the same with other energies. -/
example (env : GenEnv) : exampleArgs.PosScales ∧ ∃ g g', genInit env exampleArgs = (.ok g, env.globPos) ∧
    genInit env { exampleArgs with ustar := 1, energy := some 2 } = (.ok g', env.globPos) ∧ g.kernel.Valid := by
  have hp : exampleArgs.PosScales := by
    refine ⟨⟨by norm_num [exampleArgs], by norm_num [exampleArgs], by norm_num [exampleArgs]⟩, fun h => ?_, fun _ => ?_⟩
    · exact absurd h (by decide)
    · exact ⟨50, 3, rfl, rfl, by norm_num, by norm_num⟩
  obtain ⟨g, hg⟩ := genInit_exists env (a := exampleArgs) (Or.inl rfl) (L := 50) (T := 3) (e := 0.5) rfl rfl rfl
    (by norm_num [exampleArgs]) ⟨by norm_num [exampleArgs], by norm_num [exampleArgs], by norm_num [exampleArgs]⟩
    ⟨by norm_num, by norm_num⟩ rfl
  obtain ⟨g', hg'⟩ := genInit_exists env (a := { exampleArgs with ustar := 1, energy := some 2 }) (Or.inl rfl) (L := 50)
    (T := 3) (e := 2) rfl rfl rfl (by norm_num [exampleArgs])
    ⟨by norm_num [exampleArgs], by norm_num [exampleArgs], by norm_num [exampleArgs]⟩ ⟨by norm_num, by norm_num⟩ rfl
  refine ⟨hp, g, g', hg, hg', ?_⟩
  obtain ⟨K, L, T, hs, -, -, -, -, -, -, hk, -⟩ := genInit_ok hg
  have hz : (0 : ℝ) < 180 := by norm_num
  have : genScales env exampleArgs = .ok (.vk 50 (0.5 * 1.7 ^ 2 * (180 : ℝ) ^ (-2 / 3 : ℝ)), 50, 3) := by
    unfold genScales
    rw [if_neg (by decide), if_neg (by decide)]
    simp only [exampleArgs, heightPower_pos hz, if_true]
  rw [this] at hs
  simp only [Except.ok.injEq, Prod.mk.injEq] at hs
  rw [hk, ← hs.1]
  exact ⟨by norm_num, by positivity⟩

/-! ### C59 -/

/-- **C59** (no low-frequency model).  The outcome of the constructor with a seed does not depend on the operating system's
entropy nor on the state of numpy's global generator; hence neither does anything returned by any later calls. -/
theorem C59_seeded (env : GenEnv) (a : GenArgs) {s : ℕ} (hs : a.seed = some s) (hl : a.low = none) (entropy glob : ℕ → ℝ)
    (globPos : ℕ) : (genInit env a).1 = (genInit { env with entropy, glob, globPos } a).1 := by
  have e : genScales { env with entropy, glob, globPos } a = genScales env a := rfl
  unfold genInit
  rw [e]
  cases genScales env a with
  | error e => rfl
  | ok r =>
    obtain ⟨K, L, T⟩ := r
    simp only [hs, hl]
    split <;> try rfl
    split
    · rfl
    · split <;> rfl

/-- Loading a file gives the same network and scales whatever random initial weights the new object had. -/
theorem loadModel_indep {hyp : ℝ → ℝ} {seed seed' : NetSeed} (hs : seed.WellShaped) (hs' : seed'.WellShaped)
    (noise noise' : List ℝ) {f : String} {fs : FS} {s : OPS} (h : loadModel hyp seed noise f fs = .ok s) :
    ∃ s', loadModel hyp seed' noise' f fs = .ok s' ∧ s'.kind = s.kind ∧ s'.expScalesValue = s.expScalesValue := by
  unfold loadModel at h ⊢
  cases hf : fs.files f with
  | none => rw [hf] at h; cases h
  | some x =>
  rw [hf] at h
  simp only at h ⊢
  cases hc : calibInit hyp true (some x.nn) x.prob x.phys .default seed noise with
  | error e => rw [hc] at h; cases h
  | ok s0 =>
  rw [hc] at h
  obtain ⟨s1, h1⟩ := (C38_outcome hyp true (some x.nn) x.prob x.phys .default seed' noise').2
    ((C38_outcome hyp true (some x.nn) x.prob x.phys .default seed noise).1 ⟨s0, hc⟩)
  rw [h1]
  simp only at h ⊢
  have hA := arch_init hs hs' hc h1
  unfold OPS.setParameters at h ⊢
  by_cases hv : x.vec.length ≠ (s0.paramVec x.prob.learnNu).length
  · rw [if_pos hv] at h; cases h
  rw [if_neg hv] at h
  have hv := not_not.1 hv
  have hv' : ¬ x.vec.length ≠ (s1.paramVec x.prob.learnNu).length := not_not.2 (hv.trans hA.length)
  rw [if_neg hv']
  simp only [Except.ok.injEq] at h ⊢
  subst h
  refine ⟨_, rfl, (hA.setVec_kind hv).symm, ?_⟩
  have hpar := hA.setVec_params hv
  simp only [OPS.expScalesValue]
  have e1 := congrArg OPSParams.logL hpar
  have e2 := congrArg OPSParams.logT hpar
  have e3 := congrArg OPSParams.logM hpar
  simp only [OPS.params] at e1 e2 e3
  rw [e1, e2, e3]

/-- **C59** (DRD).  A generator built from a saved model does not depend on the random initial weights of the network into
which the file is loaded. -/
theorem C59_weights {env : GenEnv} (a : GenArgs) {seed : NetSeed} (hs : env.netSeed.WellShaped) (hs' : seed.WellShaped)
    (noise : List ℝ) {g : Gen} {q : ℕ} (h : genInit env a = (.ok g, q)) :
    genInit { env with netSeed := seed, netNoise := noise } a = (.ok g, q) := by
  obtain ⟨K, L, T, hsc, -⟩ := genInit_ok h
  have e : genScales { env with netSeed := seed, netNoise := noise } a = genScales env a := by
    rw [hsc]
    unfold genScales at hsc ⊢
    by_cases h1 : a.model ∉ ["DRD", "VK", "Mann"]
    · rw [if_pos h1] at hsc; cases hsc
    rw [if_neg h1] at hsc ⊢
    by_cases h2 : a.model = "DRD"
    · rw [if_pos h2] at hsc ⊢
      cases hp : a.path with
      | none => rw [hp] at hsc; cases hsc
      | some f =>
      rw [hp] at hsc
      simp only at hsc ⊢
      cases hm : loadModel env.hyp env.netSeed env.netNoise f env.fs with
      | error e => rw [hm] at hsc; cases hsc
      | ok ops =>
      obtain ⟨ops', h1, h2, h3⟩ := loadModel_indep hs hs' env.netNoise noise hm
      rw [hm] at hsc
      rw [h1]
      simp only [h2, h3]
      exact hsc
    · rw [if_neg h2] at hsc ⊢
      exact hsc
  rw [← h]
  unfold genInit
  rw [e]

/-! ### C60 -/

/-- A field with real values. -/
def Field4.ofReal (n1 n2 n3 : ℕ) (f : ℕ → ℕ → ℕ → ℕ → ℝ) : Field4 := ⟨n1, n2, n3, 3, fun a b c i => fin (f a b c i)⟩

/-- `np.gradient` on real numbers. -/
def gradR (n : ℕ) (h : ℝ) (f : ℕ → ℝ) (i : ℕ) : ℝ :=
  if i = 0 then (f 1 - f 0) / h else if i + 1 = n then (f (n - 1) - f (n - 2)) / h else (f (i + 1) - f (i - 1)) / (2 * h)

theorem npGradient_fin (n : ℕ) {h : ℝ} (hh : h ≠ 0) (f : ℕ → ℝ) (i : ℕ) :
    npGradient n h (fun t => fin (f t)) i = fin (gradR n h f i) := by
  unfold npGradient gradR
  split_ifs
  · rw [fin_sub_fin, fin_div_fin _ hh]
  · rw [fin_sub_fin, fin_div_fin _ hh]
  · rw [fin_sub_fin, fin_div_fin _ (by simpa using hh)]

theorem evalDivergence_fin {n1 n2 n3 : ℕ} (hn : 2 ≤ n1 ∧ 2 ≤ n2 ∧ 2 ≤ n3) {h1 h2 h3 : ℝ} (hh : h1 ≠ 0 ∧ h2 ≠ 0 ∧ h3 ≠ 0)
    (f : ℕ → ℕ → ℕ → ℕ → ℝ) :
    evalDivergence [h1, h2, h3] (.ofReal n1 n2 n3 f) = .ok fun a b c =>
      fin (gradR n1 h1 (fun t => f t b c 0) a + gradR n2 h2 (fun t => f a t c 1) b + gradR n3 h3 (fun t => f a b t 2) c) := by
  unfold evalDivergence
  rw [if_neg (by simp), if_neg (by simp [Field4.ofReal]), if_neg (by simp only [Field4.ofReal]; omega)]
  simp only [Field4.ofReal, List.getD_cons_zero, List.getD_cons_succ, npGradient_fin _ hh.1, npGradient_fin _ hh.2.1,
    npGradient_fin _ hh.2.2, fin_add_fin]

theorem gradR_linear (n : ℕ) (h : ℝ) (f g : ℕ → ℝ) (r s : ℝ) (i : ℕ) :
    gradR n h (fun t => r * f t + s * g t) i = r * gradR n h f i + s * gradR n h g i := by
  unfold gradR
  split_ifs <;> ring

theorem gradR_affine {n : ℕ} (hn : 2 ≤ n) {h : ℝ} (hh : h ≠ 0) (r s : ℝ) {i : ℕ} (hi : i < n) :
    gradR n h (fun t : ℕ => r + s * ((t : ℝ) * h)) i = s := by
  unfold gradR
  split_ifs with h1 h2
  · field_simp; push_cast; ring
  · obtain ⟨m, rfl⟩ : ∃ m, n = m + 2 := ⟨n - 2, by omega⟩
    have e1 : m + 2 - 1 = m + 1 := by omega
    have e2 : m + 2 - 2 = m := by omega
    rw [e1, e2]; field_simp; push_cast; ring
  · obtain ⟨m, rfl⟩ : ∃ m, i = m + 1 := ⟨i - 1, by omega⟩
    have e1 : m + 1 - 1 = m := by omega
    rw [e1]; field_simp; push_cast; ring

theorem gradR_quadratic {n : ℕ} {h : ℝ} (hh : h ≠ 0) (r s q : ℝ) {i : ℕ} (hi : 0 < i ∧ i + 1 < n) :
    gradR n h (fun t : ℕ => r + s * ((t : ℝ) * h) + q * ((t : ℝ) * h) ^ 2) i = s + 2 * q * ((i : ℝ) * h) := by
  unfold gradR
  rw [if_neg (by omega), if_neg (by omega)]
  obtain ⟨m, rfl⟩ : ∃ m, i = m + 1 := ⟨i - 1, by omega⟩
  have e1 : m + 1 - 1 = m := by omega
  rw [e1]; field_simp; push_cast; ring

/-- **C60.**  The divergence is evaluated exactly for three spacings, fields with three components and at least two points
along each axis; everything else raises `ValueError`. -/
theorem C60_outcome (spacing : List ℝ) (f : Field4) :
    ((∃ d, evalDivergence spacing f = .ok d) ↔
      spacing.length = 3 ∧ f.c = 3 ∧ 2 ≤ f.n1 ∧ 2 ≤ f.n2 ∧ 2 ≤ f.n3) ∧
    ((¬ ∃ d, evalDivergence spacing f = .ok d) → evalDivergence spacing f = .error .valueError) := by
  unfold evalDivergence
  split_ifs with h1 h2 h3
  · simp [h1]
  · simp [h2]
  · refine ⟨?_, fun _ => rfl⟩
    constructor
    · rintro ⟨d, hd⟩; cases hd
    · rintro ⟨-, -, q⟩; omega
  · refine ⟨?_, fun h => absurd ⟨_, rfl⟩ h⟩
    constructor
    · intro _; exact ⟨not_not.1 h1, not_not.1 h2, by omega⟩
    · intro _; exact ⟨_, rfl⟩

/-- **C60.**  Linear in the field. -/
theorem C60_linear {n1 n2 n3 : ℕ} (hn : 2 ≤ n1 ∧ 2 ≤ n2 ∧ 2 ≤ n3) {h1 h2 h3 : ℝ} (hh : h1 ≠ 0 ∧ h2 ≠ 0 ∧ h3 ≠ 0)
    (f g : ℕ → ℕ → ℕ → ℕ → ℝ) (r s : ℝ) :
    ∃ df dg d, evalDivergence [h1, h2, h3] (.ofReal n1 n2 n3 f) = .ok df ∧
      evalDivergence [h1, h2, h3] (.ofReal n1 n2 n3 g) = .ok dg ∧
      evalDivergence [h1, h2, h3] (.ofReal n1 n2 n3 fun a b c i => r * f a b c i + s * g a b c i) = .ok d ∧
      ∀ a b c, d a b c = fin r * df a b c + fin s * dg a b c := by
  refine ⟨_, _, _, evalDivergence_fin hn hh f, evalDivergence_fin hn hh g, evalDivergence_fin hn hh _, ?_⟩
  intro a b c
  simp only [gradR_linear, fin_mul_fin, fin_add_fin]
  congr 1
  ring

/-- **C60.**  Exact for affine fields at every grid point, boundary included; in particular zero for constants. -/
theorem C60_affine {n1 n2 n3 : ℕ} (hn : 2 ≤ n1 ∧ 2 ≤ n2 ∧ 2 ≤ n3) {h1 h2 h3 : ℝ} (hh : h1 ≠ 0 ∧ h2 ≠ 0 ∧ h3 ≠ 0)
    (v : ℕ → ℝ) (A : ℕ → Fin 3 → ℝ) :
    ∃ d, evalDivergence [h1, h2, h3] (.ofReal n1 n2 n3 fun a b c i =>
        v i + A i 0 * (a * h1) + A i 1 * (b * h2) + A i 2 * (c * h3)) = .ok d ∧
      ∀ a < n1, ∀ b < n2, ∀ c < n3, d a b c = fin (A 0 0 + A 1 1 + A 2 2) := by
  refine ⟨_, evalDivergence_fin hn hh _, ?_⟩
  intro a ha b hb c hc
  congr 1
  have e1 := gradR_affine hn.1 hh.1 (v 0 + A 0 1 * (b * h2) + A 0 2 * (c * h3)) (A 0 0) ha
  have e2 := gradR_affine hn.2.1 hh.2.1 (v 1 + A 1 0 * (a * h1) + A 1 2 * (c * h3)) (A 1 1) hb
  have e3 := gradR_affine hn.2.2 hh.2.2 (v 2 + A 2 0 * (a * h1) + A 2 1 * (b * h2)) (A 2 2) hc
  refine congrArg₂ _ (congrArg₂ _ (Eq.trans ?_ e1) (Eq.trans ?_ e2)) (Eq.trans ?_ e3)
  all_goals
    refine congrArg (fun f => gradR _ _ f _) ?_
    funext t
    ring

/-- **C60.**  Second-order accuracy in the interior: exact for components that are quadratic in their own coordinate. -/
theorem C60_quadratic {n1 n2 n3 : ℕ} (hn : 2 ≤ n1 ∧ 2 ≤ n2 ∧ 2 ≤ n3) {h1 h2 h3 : ℝ} (hh : h1 ≠ 0 ∧ h2 ≠ 0 ∧ h3 ≠ 0)
    (r s q : Fin 3 → ℝ) :
    ∃ d, evalDivergence [h1, h2, h3] (.ofReal n1 n2 n3 fun a b c i =>
        if i = 0 then r 0 + s 0 * (a * h1) + q 0 * (a * h1) ^ 2
        else if i = 1 then r 1 + s 1 * (b * h2) + q 1 * (b * h2) ^ 2
        else r 2 + s 2 * (c * h3) + q 2 * (c * h3) ^ 2) = .ok d ∧
      ∀ a b c : ℕ, 0 < a ∧ a + 1 < n1 → 0 < b ∧ b + 1 < n2 → 0 < c ∧ c + 1 < n3 →
        d a b c = fin ((s 0 + 2 * q 0 * (a * h1)) + (s 1 + 2 * q 1 * (b * h2)) + (s 2 + 2 * q 2 * (c * h3))) := by
  refine ⟨_, evalDivergence_fin hn hh _, ?_⟩
  intro a b c ha hb hc
  congr 1
  simp only [if_true, one_ne_zero, if_false, OfNat.ofNat_ne_zero, OfNat.ofNat_ne_one]
  rw [gradR_quadratic hh.1 _ _ _ ha, gradR_quadratic hh.2.1 _ _ _ hb, gradR_quadratic hh.2.2 _ _ _ hc]

/-- **C60.**  Adding to the first component any function of the other two coordinates (a mean wind profile) changes nothing. -/
theorem C60_mean_profile {n1 n2 n3 : ℕ} (hn : 2 ≤ n1 ∧ 2 ≤ n2 ∧ 2 ≤ n3) {h1 h2 h3 : ℝ} (hh : h1 ≠ 0 ∧ h2 ≠ 0 ∧ h3 ≠ 0)
    (f : ℕ → ℕ → ℕ → ℕ → ℝ) (U : ℕ → ℕ → ℝ) :
    evalDivergence [h1, h2, h3] (.ofReal n1 n2 n3 fun a b c i => f a b c i + if i = 0 then U b c else 0) =
      evalDivergence [h1, h2, h3] (.ofReal n1 n2 n3 f) := by
  rw [evalDivergence_fin hn hh, evalDivergence_fin hn hh]
  congr 1
  funext a b c
  congr 1
  congr 1
  · congr 1
    · unfold gradR
      simp only [if_true, add_sub_add_right_eq_sub]
    · congr 1; funext t; simp
  · congr 1; funext t; simp

example : (2 ≤ 65 ∧ 2 ≤ 33 ∧ 2 ≤ 17) ∧ ((500 : ℝ) / 65 ≠ 0 ∧ (300 : ℝ) / 33 ≠ 0 ∧ (200 : ℝ) / 17 ≠ 0) := by norm_num

/-! ### C76 -/

/-- **C76.**  The spacing written to the VTK file is the one with which the random field was sampled (and does not change
with the number of blocks); the written values are the accumulated field. -/
theorem C76_vtk {env : GenEnv} {a : GenArgs} {g : Gen} {q : ℕ} (h : genInit env a = (.ok g, q))
    (hd : 0 < a.d1 ∧ 0 < a.d2 ∧ 0 < a.d3) (cs : List (ℕ × ProfileArgs)) :
    [(g.run cs).2.vtk.1.1, (g.run cs).2.vtk.1.2.1, (g.run cs).2.vtk.1.2.2] = g.rf.h ∧
    g.rf.h = [a.d1 / (2 ^ a.l1 + 1), a.d2 / (2 ^ a.l2 + 1), a.d3 / (2 ^ a.l3 + 1)] ∧
    ∀ (i : Fin 3) (x y z : ℕ), ((((g.run cs).2.vtk.2 i)[x]?.bind fun p => p[y]?).bind fun r => r[z]?) =
      (((g.run cs).2.total.planes[x]?.bind fun p => p[y]?).bind fun r => r[z]?).map fun (v : Fin 3 → Fl) => v i := by
  obtain ⟨K, L, T, -, -, -, ⟨e1, e2, e3⟩, ⟨l1, l2, l3⟩, -, -, -, -, -, hrf, -⟩ := genInit_ok h
  have hh := (C66_grid hd.1 hd.2.1 hd.2.2 hrf).1
  obtain ⟨-, -, -, -, -, -, -, f1, f2, f3⟩ := run_same cs g
  simp only [Prod.mk.injEq] at f3
  obtain ⟨f3, f4, f5, f6⟩ := f3
  refine ⟨?_, hh, ?_⟩
  · rw [hh]
    simp only [Gen.vtk, f1, f2, f3, f4, f5, f6, e1, e2, e3, l1, l2, l3]
  · intro i x y z
    simp only [Gen.vtk, List.getElem?_map]
    cases (g.run cs).2.total.planes[x]? with
    | none => rfl
    | some p =>
      simp only [Option.map_some, Option.bind_some, List.getElem?_map]
      cases p[y]? with
      | none => rfl
      | some r => simp only [Option.map_some, Option.bind_some, List.getElem?_map]

/-- **C76.**  The mean profile is evaluated at `k * Lz / 2^lz`: its last node is the top of the domain, whereas the last node
of the field, at the written spacing, is one cell lower. -/
theorem C76_profile_nodes (g : Gen) :
    g.zSpace.length = 2 ^ g.l3 + 1 ∧ (∀ k : ℕ, k < 2 ^ g.l3 + 1 → g.zSpace[k]? = some (k * g.d3 / 2 ^ g.l3)) ∧
    g.zSpace[2 ^ g.l3]? = some g.d3 ∧
    ((2 ^ g.l3 : ℕ) : ℝ) * g.vtk.1.2.2 = g.d3 - g.d3 / (2 ^ g.l3 + 1) := by
  have hN : g.Nz = 2 ^ g.l3 + 1 := rfl
  have key : ∀ k : ℕ, k < 2 ^ g.l3 + 1 → g.zSpace[k]? = some (k * g.d3 / 2 ^ g.l3) := by
    intro k hk
    unfold Gen.zSpace tab
    rw [hN, List.getElem?_map, List.getElem?_range hk, Option.map_some, Nat.add_sub_cancel]
    congr 1
    push_cast
    ring
  refine ⟨by simp [Gen.zSpace, tab, hN], key, ?_, ?_⟩
  · rw [key _ (by omega)]
    congr 1
    push_cast
    field_simp
  · simp only [Gen.vtk]
    push_cast
    field_simp
    ring

end
end Verif
