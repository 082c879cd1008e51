import Verif.Props.GeneratorFields
import Verif.Props.GeneratorNoise

/-!
# The unit of length in the fluctuation field generator: C121
-/

namespace Verif
open Fl

noncomputable section
open Classical

/-! ### Homogeneity of the kernels -/

/-- A wavevector in another unit. -/
def K3.scale (r : ℝ) (k : K3) : K3 := ⟨r * k.k1, r * k.k2, r * k.k3⟩

theorem kkR_scale (r : ℝ) (k : K3) : kkR (k.scale r) = r ^ 2 * kkR k := by unfold kkR K3.scale; ring
theorem sR_scale (r : ℝ) (k : K3) : sR (k.scale r) = r ^ 2 * sR k := by unfold sR K3.scale; ring
theorem k30R_scale (r : ℝ) (k : K3) (b : ℝ) : k30R (k.scale r) b = r * k30R k b := by unfold k30R K3.scale; ring
theorem kk0R_scale (r : ℝ) (k : K3) (b : ℝ) : kk0R (k.scale r) b = r ^ 2 * kk0R k b := by
  unfold kk0R
  rw [k30R_scale]
  unfold K3.scale
  ring

theorem atR_scale {r : ℝ} (hr : 0 < r) (k : K3) (b : ℝ) : atR (k.scale r) b = atR k b := by
  unfold atR
  rw [kk0R_scale, k30R_scale, sR_scale, Real.sqrt_mul (by positivity), Real.sqrt_sq hr.le]
  have e : (⟨r ^ 2 * kk0R k b - r * k30R k b * (k.scale r).k1 * b, b * (k.scale r).k1 * (r * Real.sqrt (sR k))⟩ : ℂ) =
      ((r ^ 2 : ℝ) : ℂ) * ⟨kk0R k b - k30R k b * k.k1 * b, b * k.k1 * Real.sqrt (sR k)⟩ := by
    apply Complex.ext <;> simp [K3.scale, -Complex.ofReal_pow] <;> ring
  rw [e, Complex.arg_real_mul _ (by positivity)]

theorem zc_scale {r : ℝ} (hr : 0 < r) (k : K3) (b : ℝ) : zc (k.scale r) b = zc k b := by
  by_cases h1 : k.k1 = 0
  · have h1' : (k.scale r).k1 = 0 := by simp [K3.scale, h1]
    by_cases hk : kkR k = 0
    · rw [zc_zero hk, zc_zero (by rw [kkR_scale, hk, mul_zero])]
    · rw [zc_k1_zero h1 hk, zc_k1_zero h1' (by rw [kkR_scale]; positivity)]
  · have h1' : (k.scale r).k1 ≠ 0 := by simp [K3.scale, h1, hr.ne']
    rw [zc_generic h1, zc_generic h1']
    have hs := sR_pos h1
    have hkk := kkR_pos h1
    have hp : (r ^ 2 * sR k) ^ (3 / 2 : ℝ) = r ^ 3 * sR k ^ (3 / 2 : ℝ) := by
      rw [Real.mul_rpow (by positivity) hs.le, ← Real.rpow_natCast r 2, ← Real.rpow_mul hr.le, ← Real.rpow_natCast r 3]
      norm_num
    have hq := Real.rpow_pos_of_pos hs (3 / 2 : ℝ)
    have e1 : c1R (k.scale r) b = c1R k b := by
      unfold c1R
      rw [kk0R_scale, k30R_scale, kkR_scale, sR_scale]
      unfold K3.scale
      field_simp
      
    have e2 : c2R (k.scale r) b = c2R k b := by
      unfold c2R
      rw [kk0R_scale, atR_scale hr, sR_scale, hp]
      unfold K3.scale
      field_simp
    have e3 : (k.scale r).k2 / (k.scale r).k1 = k.k2 / k.k1 := by
      unfold K3.scale
      field_simp
    unfold z1R z2R z3R
    rw [e1, e2, e3, kk0R_scale, kkR_scale, mul_div_mul_left _ _ (by positivity)]

theorem kerR_scale {r : ℝ} (hr : 0 < r) (k : K3) (b : ℝ) (i j : Fin 3) : kerR (k.scale r) b i j = r * kerR k b i j := by
  unfold kerR
  rw [zc_scale hr, k30R_scale]
  fin_cases i <;> fin_cases j <;> simp [K3.scale] <;> ring

theorem constR_unit {s L E0 E1 kk : ℝ} (hs : 0 < s) (hL : 0 < L) (h0 : 0 < E0) (h1 : 0 ≤ E1) :
    constR (s * L) E1 ((s⁻¹) ^ 2 * kk) = Real.sqrt (E1 / E0 * s ^ (17 / 3 : ℝ)) * constR L E0 kk := by
  unfold constR
  have hsp := Real.rpow_pos_of_pos hs (17 / 3 : ℝ)
  rw [← Real.sqrt_mul (by positivity), Real.mul_rpow hs.le hL.le]
  have e : (s * L) ^ 2 * ((s⁻¹) ^ 2 * kk) = L ^ 2 * kk := by field_simp
  rw [e]
  congr 1
  field_simp

/-- The same kernel with all lengths in another unit and another energy. -/
def GenKernel.inUnit (s E : ℝ) : GenKernel → GenKernel
  | .vk L _ => .vk (s * L) E
  | .mann hyp L _ G => .mann hyp (s * L) E G
  | .nn net L _ G h => .nn net (s * L) E G (s * h)

theorem mannBeta_unit {hyp : ℝ → ℝ} {s L : ℝ} (G : ℝ) (hs : 0 < s) (hL : 0 < L) (hh : ∀ x < 0, 0 < hyp x) (k : K3) :
    mannBeta hyp (s * L) G (k.scale s⁻¹) = mannBeta hyp L G k := by
  rw [mannBeta_eq G hL hh, mannBeta_eq G (mul_pos hs hL) hh, kkR_scale]
  have e : s⁻¹ ^ 2 * kkR k * (s * L) ^ 2 = kkR k * L ^ 2 := by field_simp
  have e0 : (s⁻¹ ^ 2 * kkR k = 0) ↔ kkR k = 0 := by
    have : s⁻¹ ^ 2 ≠ 0 := by positivity
    simp [this, hs.ne']
  rw [e]
  congr 1
  by_cases h0 : kkR k = 0
  · rw [if_pos h0, if_pos (e0.2 h0)]
  · rw [if_neg h0, if_neg (fun h => h0 (e0.1 h))]

theorem nnBeta_unit (net : TauNet) {s : ℝ} (G h : ℝ) (hs : 0 < s) (k : K3) :
    nnBeta net G (s * h) (k.scale s⁻¹) = nnBeta net G h k := by
  unfold nnBeta
  have e : ∀ x : ℝ, s⁻¹ * x * (s * h) = x * h := fun x => by field_simp
  have e0 : ((s⁻¹ * k.k1) ^ 2 + (s⁻¹ * k.k2) ^ 2 + (s⁻¹ * k.k3) ^ 2 = 0) ↔ (k.k1 ^ 2 + k.k2 ^ 2 + k.k3 ^ 2 = 0) := by
    have h1 : (s⁻¹ * k.k1) ^ 2 + (s⁻¹ * k.k2) ^ 2 + (s⁻¹ * k.k3) ^ 2 = s⁻¹ ^ 2 * (k.k1 ^ 2 + k.k2 ^ 2 + k.k3 ^ 2) := by ring
    have : s⁻¹ ^ 2 ≠ 0 := by positivity
    rw [h1, mul_eq_zero]
    exact ⟨fun h => h.resolve_left this, Or.inr⟩
  simp only [K3.scale, e]
  by_cases h0 : k.k1 ^ 2 + k.k2 ^ 2 + k.k3 ^ 2 = 0
  · rw [if_pos h0, if_pos (e0.2 h0)]
  · rw [if_neg h0, if_neg (fun h => h0 (e0.1 h))]

/-- Factor between the kernels in two units. -/
def unitFactor (s E0 E1 : ℝ) : ℝ := Real.sqrt (E1 / E0 * s ^ (17 / 3 : ℝ)) * s⁻¹

theorem GenKernel.eval_inUnit {K : GenKernel} (hK : K.Valid) (h0 : 0 < K.E0) {s E : ℝ} (hs : 0 < s) (hE : 0 ≤ E) (k : K3)
    (i j : Fin 3) :
    times1j ((K.inUnit s E).eval (k.scale s⁻¹)) i j = (unitFactor s K.E0 E : ℂ) * times1j (K.eval k) i j := by
  have hr : 0 < s⁻¹ := inv_pos.2 hs
  have key : ∀ {L E0 b : ℝ}, 0 < L → 0 < E0 →
      constR (s * L) E (kk0R (k.scale s⁻¹) b) * kerR (k.scale s⁻¹) b i j =
        unitFactor s E0 E * (constR L E0 (kk0R k b) * kerR k b i j) := by
    intro L E0 b hL h0
    rw [kerR_scale hr, kk0R_scale, constR_unit hs hL h0 hE]
    unfold unitFactor
    ring
  cases K with
  | vk L E0 =>
    simp only [GenKernel.inUnit, GenKernel.eval, GenKernel.E0] at *
    rw [vk_entry (mul_pos hs hK.1) hE, vk_entry hK.1 h0.le]
    rw [kkR_scale, constR_unit hs hK.1 h0 hE]
    have e : (![![0, -(k.scale s⁻¹).k3, (k.scale s⁻¹).k2], ![(k.scale s⁻¹).k3, 0, -(k.scale s⁻¹).k1],
        ![-(k.scale s⁻¹).k2, (k.scale s⁻¹).k1, 0]] : Fin 3 → Fin 3 → ℝ) i j =
        s⁻¹ * (![![0, -k.k3, k.k2], ![k.k3, 0, -k.k1], ![-k.k2, k.k1, 0]] : Fin 3 → Fin 3 → ℝ) i j := by
      fin_cases i <;> fin_cases j <;> simp [K3.scale]
    rw [e]
    unfold unitFactor
    push_cast
    ring
  | mann hyp L E0 G =>
    simp only [GenKernel.inUnit, GenKernel.eval, GenKernel.E0] at *
    unfold mannKernel
    rw [mannBeta_unit G hs hK.1 hK.2.2]
    obtain ⟨b, hb⟩ : ∃ b, mannBeta hyp L G k = fin b := ⟨_, mannBeta_eq G hK.1 hK.2.2 k⟩
    rw [hb]
    unfold times1j
    rw [shearKernel_fin (mul_pos hs hK.1) hE, shearKernel_fin hK.1 h0.le]
    simp only [toReal_fin]
    rw [key hK.1 h0]
    push_cast
    ring
  | nn net L E0 G h =>
    simp only [GenKernel.inUnit, GenKernel.eval, GenKernel.E0] at *
    unfold nnKernel
    rw [nnBeta_unit net G h hs]
    obtain ⟨b, hb⟩ := nnBeta_fin hK.2.2.1 G hK.2.2.2 k
    rw [hb]
    unfold times1j
    rw [shearKernel_fin (mul_pos hs hK.1) hE, shearKernel_fin hK.1 h0.le]
    simp only [toReal_fin]
    rw [key hK.1 h0]
    push_cast
    ring

theorem unitFactor_pos {s E0 E1 : ℝ} (hs : 0 < s) (h0 : 0 < E0) (h1 : 0 < E1) : 0 < unitFactor s E0 E1 := by
  unfold unitFactor
  have := Real.rpow_pos_of_pos hs (17 / 3 : ℝ)
  exact mul_pos (Real.sqrt_pos.2 (by positivity)) (inv_pos.2 hs)

theorem freqOf_unit {n1 n2 n3 : ℕ} {s : ℝ} (hs : 0 < s) (L1 L2 L3 : ℝ) (k : Box n1 n2 n3) :
    freqOf (s * L1) (s * L2) (s * L3) k = (freqOf L1 L2 L3 k).scale s⁻¹ := by
  unfold freqOf K3.scale
  have e : ∀ L x : ℝ, 2 * Real.pi / (s * L) * x = s⁻¹ * (2 * Real.pi / L * x) := fun L x => by
    rw [mul_comm s L, ← div_div]
    ring
  rw [e, e, e]

/-! ### Histories of calls whose blocks are proportional -/

theorem entry_block {g : Gen} (j : ℕ) :
    g.block j = Arr.ofFn g.Nx g.Ny g.Nz fun a b c i => (g.block j).entry a b c i := by
  conv_lhs => unfold Gen.block
  refine ofFn_congr fun a ha b hb c hc => ?_
  funext i
  unfold Gen.block
  rw [ofFn_entry _ ha hb hc]

/-- Two objects whose blocks are proportional and whose profiles correspond produce the same fields. -/
theorem run_proportional {g g' : Gen} (f : ProfileArgs → ProfileArgs) (nx : g'.Nx = g.Nx) (ny : g'.Ny = g.Ny)
    (nz : g'.Nz = g.Nz) {s : ℝ} (hs : 0 < s)
    (hb : ∀ j a b c i, a < g.Nx → b < g.Ny → c < g.Nz → (g'.block j).entry a b c i = s * (g.block j).entry a b c i)
    (hprof : ∀ p c, g'.profileAt (f p) c = g.profileAt p c) (hv : ∀ p, (f p).Valid ↔ p.Valid) (hlow : g.low = none)
    (hlow' : g'.low = none) (hg : g.Good) (hg' : g'.Good) (cs : List (ℕ × ProfileArgs)) :
    ∀ (j : ℕ) (tot : Arr Fl), tot.n2 = g.Ny ∧ tot.n3 = g.Nz →
      (Gen.run cs (g.st j tot)).1 = (Gen.run (cs.map fun c => (c.1, f c.2)) (g'.st j tot)).1 ∧
      (Gen.run cs (g.st j tot)).2.total = (Gen.run (cs.map fun c => (c.1, f c.2)) (g'.st j tot)).2.total := by
  have hl : g.LowReady := fun lf h => by rw [hlow] at h; cases h
  have hl' : g'.LowReady := fun lf h => by rw [hlow'] at h; cases h
  have hblock : ∀ j, g'.block j = Arr.ofFn g.Nx g.Ny g.Nz fun a b c i => s * (g.block j).entry a b c i := by
    intro j
    rw [entry_block, nx, ny, nz]
    refine ofFn_congr fun a ha b hb' c hc => ?_
    funext i
    exact hb j a b c i ha hb' hc
  have hany : ∀ j, (g'.block j).any ↔ (g.block j).any := by
    intro j
    rw [hblock]
    conv_rhs => rw [entry_block]
    rw [any_ofFn, any_ofFn]
    constructor
    · rintro ⟨a, ha, b, hb, c, hc, i, h⟩
      exact ⟨a, ha, b, hb, c, hc, i, right_ne_zero_of_mul h⟩
    · rintro ⟨a, ha, b, hb, c, hc, i, h⟩
      exact ⟨a, ha, b, hb, c, hc, i, mul_ne_zero hs.ne' h⟩
  have hsd : ∀ j, (g'.block j).sd = s * (g.block j).sd := by
    intro j
    rw [hblock, flat_smul _ _ _ _ hs, ← entry_block]
  have hout : ∀ p i j a b c, a < g.Nx → b < g.Ny → c < g.Nz → g'.outAt (f p) i j a b c = g.outAt p i j a b c := by
    intro p i j a b c ha hb' hc
    funext k
    have : (g'.block j).entry a b c k / (g'.block j).sd = (g.block j).entry a b c k / (g.block j).sd := by
      rw [hsd, hb j a b c k ha hb' hc, mul_div_mul_left _ _ hs.ne']
    unfold Gen.outAt
    simp only
    rw [this, hlow, hlow', hprof]
    simp only [reduceIte]
  have houts : ∀ p i j k, g'.outs (f p) i j k = g.outs p i j k := by
    intro p i j k
    unfold Gen.outs
    have e : ∀ t, (Arr.ofFn g'.Nx g'.Ny g'.Nz (g'.outAt (f p) (i + t) (j + t))).planes =
        (Arr.ofFn g.Nx g.Ny g.Nz (g.outAt p (i + t) (j + t))).planes := by
      intro t
      rw [nx, ny, nz, ofFn_congr fun a ha b hb c hc => hout p (i + t) (j + t) a b c ha hb hc]
    simp only [e]
  induction cs with
  | nil => intro j tot _; exact ⟨rfl, rfl⟩
  | cons c cs ih =>
    obtain ⟨n, p⟩ := c
    intro j tot ht
    have ht' : tot.n2 = g'.Ny ∧ tot.n3 = g'.Nz := by rw [ny, nz]; exact ht
    have hext : ∀ l, g'.ext tot l = g.ext tot l := fun l => by unfold Gen.ext; rw [ny, nz]
    have hav : ∀ j, ((g'.block j).any ∧ (f p).Valid) ↔ ((g.block j).any ∧ p.Valid) := fun j => by rw [hany, hv]
    rcases generate_st hg hl p n j ht with ⟨h1, h2⟩ | ⟨k, hk, h1, h3, h2⟩
    · rcases generate_st hg' hl' (f p) n j ht' with ⟨h4, h5⟩ | ⟨k, hk, h4, h6, h5⟩
      · rw [List.map_cons]
        unfold Gen.run
        simp only
        rw [h2, h5, hext, houts]
        have := ih (j + n) (g.ext tot (g.outs p 0 j n)) ⟨rfl, rfl⟩
        exact ⟨by rw [this.1], this.2⟩
      · exact absurd ((hav _).2 (h1 k hk)) h6
    · rcases generate_st hg' hl' (f p) n j ht' with ⟨h4, h5⟩ | ⟨k', hk', h4, h6, h5⟩
      · exact absurd ((hav _).1 (h4 k hk)) h3
      · have hkk : k = k' := by
          rcases lt_trichotomy k k' with hlt | heq | hlt
          · exact absurd ((hav _).1 (h4 k hlt)) h3
          · exact heq
          · exact absurd ((hav _).2 (h1 k' hlt)) h6
        subst hkk
        rw [List.map_cons]
        unfold Gen.run
        simp only
        rw [h2, h5, hext, houts]
        have := ih (j + k + 1) (g.ext tot (g.outs p 0 j k)) ⟨rfl, rfl⟩
        exact ⟨by rw [this.1], this.2⟩

/-! ### C121 -/

/-- The constructor arguments with all lengths expressed in another unit (`s` of the new units make one old unit). -/
def Spec.argsInUnit (s : ℝ) (a : GenArgs) : GenArgs :=
  { a with d1 := s * a.d1, d2 := s * a.d2, d3 := s * a.d3, zref := s * a.zref, length := a.length.map fun l => s * l }

/-- The arguments of `generate` with all lengths expressed in another unit. -/
def Spec.profileInUnit (s : ℝ) (p : ProfileArgs) : ProfileArgs := { p with zref := s * p.zref, z0 := s * p.z0 }

theorem fin_div_unit {s : ℝ} (hs : 0 < s) (x y : ℝ) : fin (s * x) / fin (s * y) = fin x / fin y := by
  by_cases hy : y = 0
  · subst hy
    rw [mul_zero, fin_div_zero, fin_div_zero]
    unfold infMul
    have e1 : (s * x = 0) ↔ x = 0 := by simp [hs.ne']
    have e2 : (0 < s * x) ↔ 0 < x := mul_pos_iff_of_pos_left hs
    by_cases h1 : x = 0
    · rw [if_pos h1, if_pos (e1.2 h1)]
    · rw [if_neg h1, if_neg (fun h => h1 (e1.1 h))]
      by_cases h2 : 0 < x
      · rw [if_pos h2, if_pos (e2.2 h2)]
      · rw [if_neg h2, if_neg (fun h => h2 (e2.1 h))]
  · rw [fin_div_fin _ hy, fin_div_fin _ (mul_ne_zero hs.ne' hy), mul_div_mul_left _ _ hs.ne']

theorem profileAt_unit {g g' : Gen} {s : ℝ} (hs : 0 < s) (h3 : g'.d3 = s * g.d3) (nz : g'.Nz = g.Nz) (p : ProfileArgs) (c : ℕ) :
    g'.profileAt (Spec.profileInUnit s p) c = g.profileAt p c := by
  unfold Gen.profileAt Spec.profileInUnit
  have e : (c : ℝ) * (g'.d3 / (g'.Nz - 1 : ℕ)) = s * ((c : ℝ) * (g.d3 / (g.Nz - 1 : ℕ))) := by rw [h3, nz]; ring
  simp only [e]
  unfold logLaw powerLaw
  simp only [fin_div_unit hs]

theorem profileValid_unit {s : ℝ} (hs : 0 < s) (p : ProfileArgs) : (Spec.profileInUnit s p).Valid ↔ p.Valid := by
  unfold ProfileArgs.Valid Spec.profileInUnit
  simp only [mul_pos_iff_of_pos_left hs]

theorem grfInit_vf (l1 l2 l3 n1 n2 n3 : ℕ) (d1 d2 d3 : ℝ) :
    grfInit 3 (.array [l1, l2, l3]) (some (.array [n1, n2, n3])) [d1, d2, d3] .vfFftw =
      .ok ⟨[d1 / (2 ^ l1 + 1), d2 / (2 ^ l2 + 1), d3 / (2 ^ l3 + 1)], [n1, n2, n3],
        [d1 / (2 ^ l1 + 1) * n1, d2 / (2 ^ l2 + 1) * n2, d3 / (2 ^ l3 + 1) * n3], [(0, 0 + n1), (0, 0 + n2), (0, 0 + n3)],
        Real.sqrt ([d1 / (2 ^ l1 + 1), d2 / (2 ^ l2 + 1), d3 / (2 ^ l3 + 1)] : List ℝ).prod, .vfFftw⟩ := by
  rfl

theorem genScales_unit {env : GenEnv} {a : GenArgs} {s : ℝ} (hs : 0 < s) {K : GenKernel} {L T : ℝ}
    (h : genScales env a = .ok (K, L, T)) (hz : 0 < a.zref) (hu : a.ustar ≠ 0) (he : ∀ e, a.energy = some e → 0 < e) :
    ∃ E, 0 < E ∧ 0 < K.E0 ∧ genScales env (Spec.argsInUnit s a) = .ok (K.inUnit s E, s * L, T) := by
  have hzs : 0 < s * a.zref := mul_pos hs hz
  have hzp : 0 < a.zref ^ (-2 / 3 : ℝ) := Real.rpow_pos_of_pos hz _
  have hzp' : 0 < (s * a.zref) ^ (-2 / 3 : ℝ) := Real.rpow_pos_of_pos hzs _
  have hu2 : 0 < a.ustar ^ 2 := by positivity
  unfold Spec.argsInUnit
  unfold genScales at h ⊢
  simp only at h ⊢
  by_cases h1 : a.model ∉ ["DRD", "VK", "Mann"]
  · rw [if_pos h1] at h; cases h
  rw [if_neg h1] at h ⊢
  by_cases h2 : a.model = "DRD"
  · rw [if_pos h2] at h ⊢
    cases hp : a.path with
    | none => rw [hp] at h; cases h
    | some f =>
    rw [hp] at h
    simp only at h ⊢
    cases hm : loadModel env.hyp env.netSeed env.netNoise f env.fs with
    | error e => rw [hm] at h; cases h
    | ok ops =>
    rw [hm] at h
    simp only [heightPower_pos hz, heightPower_pos hzs] at h ⊢
    cases hk : ops.kind with
    | taunet net =>
      rw [hk] at h
      simp only [Except.ok.injEq, Prod.mk.injEq] at h ⊢
      obtain ⟨rfl, rfl, rfl⟩ := h
      have hM : 0 < 4 * Real.pi * ops.expScalesValue.1 ^ (-5 / 3 : ℝ) * ops.expScalesValue.2.2 := by
        unfold OPS.expScalesValue
        simp only
        have := Real.rpow_pos_of_pos (Real.exp_pos ops.logL) (-5 / 3 : ℝ)
        positivity
      refine ⟨4 * Real.pi * ops.expScalesValue.1 ^ (-5 / 3 : ℝ) * ops.expScalesValue.2.2 * a.ustar ^ 2 *
        (s * a.zref) ^ (-2 / 3 : ℝ), by positivity, ?_, ?_, ?_, rfl⟩
      · simp only [GenKernel.E0]; positivity
      · simp only [GenKernel.inUnit]
        congr 1
        ring
      · ring
    | _ => rw [hk] at h; cases h
  · rw [if_neg h2] at h ⊢
    cases hl : a.length with
    | none => rw [hl] at h; cases h
    | some l =>
    cases ht : a.time with
    | none => rw [hl, ht] at h; cases h
    | some t =>
    cases hn : a.energy with
    | none => rw [hl, ht, hn] at h; cases h
    | some e0 =>
    rw [hl, ht, hn] at h
    simp only [heightPower_pos hz, heightPower_pos hzs, Except.ok.injEq, Prod.mk.injEq, Option.map_some] at h ⊢
    have p0 := he e0 hn
    obtain ⟨rfl, rfl, rfl⟩ := h
    refine ⟨e0 * a.ustar ^ 2 * (s * a.zref) ^ (-2 / 3 : ℝ), by positivity, ?_, ?_, rfl, rfl⟩ <;>
      by_cases hv : a.model = "VK" <;> simp only [hv, if_true, if_false] <;>
      first | rfl | (simp only [GenKernel.E0]; positivity)

theorem ceilDiv_unit {s : ℝ} (hs : 0 < s) (x y : ℝ) : ceilDiv (s * x) (s * y) = ceilDiv x y := by
  unfold ceilDiv
  rw [mul_div_mul_left _ _ hs.ne']
  have e : ∀ t : ℝ, (s * t = 0) ↔ t = 0 := fun t => by simp [hs.ne']
  by_cases hy : y = 0
  · rw [if_pos hy, if_pos ((e y).2 hy)]
    by_cases hx : x = 0
    · rw [if_pos hx, if_pos ((e x).2 hx)]
    · rw [if_neg hx, if_neg (fun h => hx ((e x).1 h))]
  · rw [if_neg hy, if_neg (fun h => hy ((e y).1 h))]

/-- The constructor in another unit. -/
theorem genInit_unit {env : GenEnv} {a : GenArgs} {s : ℝ} (hs : 0 < s) {g : Gen} {q : ℕ} (h : genInit env a = (.ok g, q))
    (hlow : a.low = none) {K K' : GenKernel} {L T : ℝ} (hk : genScales env a = .ok (K, L, T))
    (hk' : genScales env (Spec.argsInUnit s a) = .ok (K', s * L, T)) :
    ∃ rf, genInit env (Spec.argsInUnit s a) =
        (.ok { g with d1 := s * g.d1, d2 := s * g.d2, d3 := s * g.d3, kernel := K', rf := rf }, q) ∧
      rf.L = g.rf.L.map (s * ·) ∧ rf.noiseStd = Real.sqrt (s ^ 3) * g.rf.noiseStd ∧ g.rf.L.length = 3 := by
  unfold Spec.argsInUnit at hk' ⊢
  unfold genInit at h ⊢
  rw [hk] at h
  rw [hk']
  simp only at h ⊢
  have e1 : 3 * T * (s * L) = s * (3 * T * L) := by ring
  rw [e1, mul_div_assoc s a.d1, mul_div_assoc s a.d2, mul_div_assoc s a.d3, ceilDiv_unit hs, ceilDiv_unit hs, ceilDiv_unit hs]
  split at h <;> try (simp at h; done)
  rename_i nb my mz h1 h2 h3
  split at h
  · simp at h
  rename_i hc
  simp only [h1, h2, h3]
  rw [if_neg hc]
  rw [grfInit_vf] at h ⊢
  rw [hlow] at h ⊢
  simp only [Prod.mk.injEq, Except.ok.injEq] at h ⊢
  obtain ⟨rfl, rfl⟩ := h
  refine ⟨_, ⟨rfl, rfl⟩, ?_, ?_, rfl⟩
  · simp only [List.map_cons, List.map_nil]
    congr 1
    · ring
    · congr 1
      · ring
      · congr 1
        ring
  · simp only [List.prod_cons, List.prod_nil, mul_one]
    rw [← Real.sqrt_mul (by positivity)]
    congr 1
    ring

/-- **C121** The unit of length does not matter: expressing the dimensions of the grid, the reference height, the length scale and the
heights of the profile in another unit leaves every result of every call of every history unchanged, exceptions included, and so the
accumulated field.  (All three models; without low-frequency part; kernels in the documented range as for C56.) -/
theorem C121_units {env : GenEnv} {a : GenArgs} {s : ℝ} (hs : 0 < s) (ha : a.PosScales) (hz : 0 < a.zref) (hu : a.ustar ≠ 0)
    (he : ∀ e, a.energy = some e → 0 < e) (hlow : a.low = none) {g : Gen} {q : ℕ} (h : genInit env a = (.ok g, q))
    (hK : g.kernel.Valid) :
    ∃ g', genInit env (Spec.argsInUnit s a) = (.ok g', q) ∧ ∀ cs : List (ℕ × ProfileArgs),
      (g'.run (cs.map fun c => (c.1, Spec.profileInUnit s c.2))).1 = (g.run cs).1 ∧
      (g'.run (cs.map fun c => (c.1, Spec.profileInUnit s c.2))).2.total = (g.run cs).2.total := by
  obtain ⟨K, L, T, hk, hf, -, -, -, -, -, rfl, -, -, -, hl, -⟩ := genInit_ok h
  have hg := genInit_good ha h
  obtain ⟨E, hE, h0, hk'⟩ := genScales_unit hs hk hz hu he
  obtain ⟨rf, h', hL, hstd, hlen⟩ := genInit_unit hs h hlow hk hk'
  refine ⟨_, h', fun cs => ?_⟩
  set g' : Gen := { g with d1 := s * g.d1, d2 := s * g.d2, d3 := s * g.d3, kernel := g.kernel.inUnit s E, rf := rf } with hgdef
  have hg' : g'.Good := hg
  obtain ⟨e1, e2, e3, p1, p2, p3, -⟩ := hg.shapes
  obtain ⟨L1, L2, L3, hLs⟩ : ∃ L1 L2 L3, g.rf.L = [L1, L2, L3] := by
    match hm : g.rf.L, hlen with
    | [x, y, z], _ => exact ⟨x, y, z, rfl⟩
  have hL' : rf.L = [s * L1, s * L2, s * L3] := by rw [hL, hLs]; rfl
  set c := unitFactor s g.kernel.E0 E with hc
  have hcp : 0 < c := unitFactor_pos hs h0 hE
  have hsample : ∀ j a b d i, a < g.shape1.toNat → b < g.shape2.toNat → d < g.shape3.toNat →
      (g'.sample (g'.window j)).entry a b d i = c * (g.sample (g.window j)).entry a b d i := by
    intro j a b d i ha hb hd
    have hn : 0 < g.shape1.toNat ∧ 0 < g.shape2.toNat ∧ 0 < g.shape3.toNat := ⟨p1, p2, p3⟩
    have hn' : 0 < g'.shape1.toNat ∧ 0 < g'.shape2.toNat ∧ 0 < g'.shape3.toNat := hn
    have : NeZero g.shape1.toNat := ⟨p1.ne'⟩
    have : NeZero g.shape2.toNat := ⟨p2.ne'⟩
    have : NeZero g.shape3.toNat := ⟨p3.ne'⟩
    unfold Gen.sample
    simp only
    rw [dif_pos hn, dif_pos hn', ofFn_entry _ ha hb hd]
    refine (ofFn_entry _ ha hb hd i).trans ?_
    change vfSample (n1 := g.shape1.toNat) (n2 := g.shape2.toNat) (n3 := g.shape3.toNat)
      (spectrumOf (g.kernel.inUnit s E).eval (rf.L.getD 0 0) (rf.L.getD 1 0) (rf.L.getD 2 0))
      (transformNorm (rf.L.getD 0 0) (rf.L.getD 1 0) (rf.L.getD 2 0))
      (fun (x : Box g.shape1.toNat g.shape2.toNat g.shape3.toNat) l => (g'.window j).entry x.1.val x.2.1.val x.2.2.val l)
      ((a : ZMod g.shape1.toNat), (b : ZMod g.shape2.toNat), (d : ZMod g.shape3.toNat)) i = _
    rw [hL', hLs]
    simp only [List.getD_cons_zero, List.getD_cons_succ]
    have hnoise : ∀ (x : Box g.shape1.toNat g.shape2.toNat g.shape3.toNat) l,
        (g'.window j).entry x.1.val x.2.1.val x.2.2.val l =
          Real.sqrt (s ^ 3) * (g.window j).entry x.1.val x.2.1.val x.2.2.val l +
            0 * (g.window j).entry x.1.val x.2.1.val x.2.2.val l := by
      intro x l
      have w : ∀ G : Gen, G.window j = Arr.ofFn G.shape1.toNat G.shape2.toNat G.shape3.toNat fun a b c i =>
          G.gauss ((((j * G.Nx + a) * G.shape2.toNat + b) * G.shape3.toNat + c) * 3 + i.val) * G.rf.noiseStd := fun G => rfl
      rw [w g, ofFn_entry _ (ZMod.val_lt _) (ZMod.val_lt _) (ZMod.val_lt _), w g']
      refine (ofFn_entry _ (ZMod.val_lt x.1) (ZMod.val_lt x.2.1) (ZMod.val_lt x.2.2) l).trans ?_
      change g.gauss _ * rf.noiseStd = _
      rw [hstd]
      change g.gauss ((((j * g.Nx + x.1.val) * g.shape2.toNat + x.2.1.val) * g.shape3.toNat + x.2.2.val) * 3 + l.val) * _ = _
      ring
    have hnorm : transformNorm (s * L1) (s * L2) (s * L3) = Real.sqrt (s ^ 3) * transformNorm L1 L2 L3 := by
      unfold transformNorm
      rw [← Real.sqrt_mul (by positivity)]
      congr 1
      ring
    have hS : ∀ (k : Box g.shape1.toNat g.shape2.toNat g.shape3.toNat) i l,
        spectrumOf (g.kernel.inUnit s E).eval (s * L1) (s * L2) (s * L3) k i l =
          (c : ℂ) * spectrumOf g.kernel.eval L1 L2 L3 k i l := by
      intro k i l
      unfold spectrumOf
      rw [freqOf_unit hs]
      exact GenKernel.eval_inUnit hK h0 hs hE.le _ i l
    have e0 : (fun (x : Box g.shape1.toNat g.shape2.toNat g.shape3.toNat) l =>
        (g'.window j).entry x.1.val x.2.1.val x.2.2.val l) = fun x l =>
          Real.sqrt (s ^ 3) * (g.window j).entry x.1.val x.2.1.val x.2.2.val l +
            0 * (g.window j).entry x.1.val x.2.1.val x.2.2.val l := by
      funext x l
      exact hnoise x l
    rw [e0, vfSample_smul hS, C61_linear, zero_mul, add_zero, hnorm]
    have hsq : Real.sqrt (s ^ 3) ≠ 0 := (Real.sqrt_pos.2 (by positivity)).ne'
    rw [vfSample_eq, vfSample_eq]
    congr 1
    rw [← div_div, ← mul_div_assoc, ← mul_div_assoc]
    field_simp
  have hblock : ∀ j a b d i, a < g.Nx → b < g.Ny → d < g.Nz → (g'.block j).entry a b d i = c * (g.block j).entry a b d i := by
    intro j a b d i ha hb hd
    have hx := blendExt_nonneg g.bn
    obtain ⟨q1, q2, q3⟩ := hg
    change (Arr.ofFn g.Nx g.Ny g.Nz fun a b c i => (g'.sample (g'.window j)).entry (g.nb.toNat + a) (g.my.toNat + b) c i).entry a
      b d i = _
    rw [ofFn_entry _ ha hb hd, hsample _ _ _ _ _ (by omega) (by omega) (by omega)]
    congr 1
    unfold Gen.block
    rw [ofFn_entry _ ha hb hd]
  have hr := run_proportional (g := g) (g' := g') (Spec.profileInUnit s) rfl rfl rfl hcp hblock
    (fun p c => profileAt_unit (g := g) (g' := g') hs rfl rfl p c) (profileValid_unit hs) (hl hlow) (hl hlow) hg hg' cs 0 ⟨g.Ny, g.Nz, []⟩ ⟨rfl, rfl⟩
  have hf' : g'.Fresh := hf
  rw [hf.st] at hr
  have e3 : g'.st 0 ⟨g.Ny, g.Nz, []⟩ = g' := hf'.st
  rw [e3] at hr
  exact ⟨hr.1.symm, hr.2.symm⟩

/-- **C121** The unit of velocity does matter: with the reference velocity of the profile multiplied by `v > 0` (and the friction
velocity of the constructor in another unit too, which changes nothing by C56) the call after the same history returns the same
fluctuations, of mean square one in every block, on top of the profile of the other reference velocity. -/
theorem C121_velocity {env : GenEnv} {a : GenArgs} {g : Gen} {q : ℕ} (ha : a.PosScales) (h : genInit env a = (.ok g, q))
    (hlow : a.low = none) (cs : List (ℕ × ProfileArgs)) (p : ProfileArgs) {v : ℝ} (hv : 0 < v) (n : ℕ) {f : Arr Fl}
    (hf : ((g.run cs).2.generate p n).1 = .ok f) :
    ∃ f', ((g.run cs).2.generate { p with uref := v * p.uref } n).1 = .ok f' ∧ ∀ i < n, ∃ x : ℕ → ℕ → ℕ → Fin 3 → ℝ,
      (∀ r < g.Nx, ∀ b < g.Ny, ∀ c < g.Nz, ∃ w w',
        f.val? ((g.run cs).2.total.planes.length + (i * g.Nx + r)) b c = some w ∧
        f'.val? ((g.run cs).2.total.planes.length + (i * g.Nx + r)) b c = some w' ∧
        w 0 = fin (x r b c 0) + (if p.ptype = "LOG" then logLaw (c * (a.d3 / 2 ^ a.l3)) p.z0 p.zref p.uref
          else powerLaw (c * (a.d3 / 2 ^ a.l3)) p.zref p.uref (p.plexp.getD 0)) ∧
        w' 0 = fin (x r b c 0) + (if p.ptype = "LOG" then logLaw (c * (a.d3 / 2 ^ a.l3)) p.z0 p.zref (v * p.uref)
          else powerLaw (c * (a.d3 / 2 ^ a.l3)) p.zref (v * p.uref) (p.plexp.getD 0)) ∧
        w 1 = fin (x r b c 1) ∧ w' 1 = fin (x r b c 1) ∧ w 2 = fin (x r b c 2) ∧ w' 2 = fin (x r b c 2)) ∧
      (∑ r ∈ Finset.range g.Nx, ∑ b ∈ Finset.range g.Ny, ∑ c ∈ Finset.range g.Nz, ∑ k, x r b c k ^ 2) /
        (g.Nx * g.Ny * g.Nz * 3 : ℕ) = 1 := by
  obtain ⟨p', hp'⟩ : ∃ p' : ProfileArgs, p' = { p with uref := v * p.uref } := ⟨_, rfl⟩
  rw [← hp']
  have hval : p'.Valid ↔ p.Valid := by
    rw [hp']
    unfold ProfileArgs.Valid
    simp only [mul_pos_iff_of_pos_left hv]
  obtain ⟨_, _, _, -, hfr, hlr, ⟨-, -, d3⟩, ⟨-, -, l3⟩, -, -, -, -, -, -, hnone, -⟩ := genInit_ok h
  have hl := hnone hlow
  have hg := genInit_good ha h
  obtain ⟨j, k', tot', e, sh, -⟩ := run_st hg hlr cs 0 0 ⟨g.Ny, g.Nz, []⟩ ⟨rfl, rfl, by simp, fun p hp => by cases hp⟩
  rw [hfr.st] at e
  rw [e] at hf ⊢
  rcases generate_st hg hlr p n j ⟨sh.1, sh.2.1⟩ with ⟨h1, h2⟩ | ⟨_, _, _, _, h2⟩
  swap
  · rw [h2] at hf; cases hf
  rcases generate_st hg hlr p' n j ⟨sh.1, sh.2.1⟩ with ⟨-, h3⟩ | ⟨k, hk, -, h3, -⟩
  swap
  · exact absurd ⟨(h1 k hk).1, hval.2 (h1 k hk).2⟩ h3
  rw [h2] at hf
  obtain rfl := Except.ok.inj hf
  refine ⟨g.ext tot' (g.outs p' 0 j n), by rw [h3], fun i hi => ?_⟩
  have hz : ((g.Nz - 1 : ℕ) : ℝ) = 2 ^ g.l3 := by unfold Gen.Nz; simp
  have hb : g.block (j + i) = Arr.ofFn g.Nx g.Ny g.Nz fun a b c i' => (g.block (j + i)).entry a b c i' := by
    conv_lhs => unfold Gen.block
    refine ofFn_congr fun a ha b hb c hc => ?_
    funext i'
    unfold Gen.block
    rw [ofFn_entry _ ha hb hc]
  refine ⟨fun a b c k => (g.block (j + i)).entry a b c k / (g.block (j + i)).sd, ?_, ?_⟩
  · intro r hr b hb' c hc
    have v1 := ext_val? g tot' p 0 j n i r b c hi hr hb' hc
    have v2 := ext_val? g tot' p' 0 j n i r b c hi hr hb' hc
    rw [Nat.zero_add] at v1 v2
    refine ⟨_, _, v1, v2, ?_⟩
    unfold Gen.outAt Gen.profileAt
    rw [hl, hz, d3, l3, hp']
    simp only [if_true, add_fin_zero]
    exact ⟨trivial, trivial, trivial, trivial, trivial, trivial⟩
  · have hm := (sd_mean_square (n1 := g.Nx) (n2 := g.Ny) (n3 := g.Nz) (fun a b c i' => (g.block (j + i)).entry a b c i')
      (by rw [← hb]; exact (h1 i hi).1)).2
    rw [← hb] at hm
    exact hm

/-- Arguments meeting the hypotheses of `C121_units` (any change of unit, any stream, 500 m by 300 m by 200 m). -/
example (env : GenEnv) : exampleArgs.PosScales ∧ 0 < exampleArgs.zref ∧ exampleArgs.ustar ≠ 0 ∧
    (∀ e, exampleArgs.energy = some e → 0 < e) ∧ exampleArgs.low = none ∧
    (∃ g, genInit env exampleArgs = (.ok g, env.globPos) ∧ g.kernel.Valid) ∧
    (Spec.argsInUnit 1000 exampleArgs).d1 = 500000 := by
  obtain ⟨h1, -, h3, -⟩ := exampleArgs_physical env
  refine ⟨h1, by norm_num [exampleArgs], by norm_num [exampleArgs], fun e he => ?_, rfl, h3, ?_⟩
  · obtain rfl := Option.some.inj he
    norm_num
  · norm_num [Spec.argsInUnit, exampleArgs]

end
end Verif
