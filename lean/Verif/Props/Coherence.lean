import Verif.Props.OnePoint
import Mathlib.Analysis.Complex.Norm
import Mathlib.Analysis.SpecialFunctions.Complex.Circle

/-!
# Spectral coherence: C22, C23
-/

namespace Verif
open Fl Filter Topology

noncomputable section

/-- Embedding of the complex numbers. -/
def cflOf (z : ℂ) : CFl := (fin z.re, fin z.im)

theorem cflOf_quad (g2 g3 : List ℝ) (f : ℝ → ℝ → ℂ) :
    quad23 g2 g3 (fun x y => cflOf (f x y)) = cflOf (quad23 g2 g3 f) :=
  quad23_map cflOf rfl (fun _ _ => rfl) (fun r a => by
    show _ = ((r • fin a.re, r • fin a.im) : CFl)
    simp [cflOf]) g2 g3 f

theorem cflAbs_of (z : ℂ) : cflAbs (cflOf z) = fin ‖z‖ := by
  unfold cflAbs cflOf
  simp only [fin_mul_fin, fin_add_fin]
  rw [sqrt_fin (by nlinarith [sq_nonneg z.re, sq_nonneg z.im]), Complex.norm_def, Complex.normSq_apply]

/-- The phase factor as a complex number. -/
def phase (t : ℝ) : ℂ := Complex.exp (t * Complex.I)

theorem norm_phase (t : ℝ) : ‖phase t‖ = 1 := Complex.norm_exp_ofReal_mul_I t

theorem phase_neg (t : ℝ) : phase (-t) = (starRingEnd ℂ) (phase t) := by
  unfold phase
  rw [← Complex.exp_conj]
  simp

theorem cflMul_phase (x t : ℝ) : cflMul (fin x) (cflExpI t) = cflOf ((x:ℂ) * phase t) := by
  unfold cflMul cflExpI cflOf phase
  rw [Complex.exp_mul_I]
  simp [← Complex.ofReal_cos, ← Complex.ofReal_sin]

/-- Weighted phase integral. -/
def cohZ (g2 g3 : List ℝ) (f : ℝ → ℝ → ℝ) (r : ℝ) : ℂ := quad23 g2 g3 fun k2 k3 => (f k2 k3 : ℂ) * phase (k2 * r)

theorem cohZ_zero (g2 g3 : List ℝ) (f : ℝ → ℝ → ℝ) : cohZ g2 g3 f 0 = (quad23 g2 g3 f : ℝ) := by
  unfold cohZ
  rw [← quad23_map (fun x : ℝ => (x:ℂ)) (by simp) (by simp) (by simp)]
  apply quad23_congr
  intros
  simp [phase]

theorem cohZ_neg (g2 g3 : List ℝ) (f : ℝ → ℝ → ℝ) (r : ℝ) : ‖cohZ g2 g3 f (-r)‖ = ‖cohZ g2 g3 f r‖ := by
  have : cohZ g2 g3 f (-r) = (starRingEnd ℂ) (cohZ g2 g3 f r) := by
    unfold cohZ
    rw [← quad23_map (fun z : ℂ => (starRingEnd ℂ) z) (by simp) (by simp)
      (fun c z => by simp [Complex.real_smul])]
    apply quad23_congr
    intro x _ y _
    rw [map_mul, ← phase_neg]
    simp
  rw [this, Complex.norm_conj]

theorem cohEntry_fin (p : OPSParams) (g2 g3 : List ℝ) (c : Comp3) (k1 r : ℝ) (f : ℝ → ℝ → ℝ)
    (hf : ∀ k2 ∈ g2, ∀ k3 ∈ g3, c.sel (cohPhi p ⟨k1, k2, k3⟩) = fin (f k2 k3)) (hs : 0 < quad23 g2 g3 f) :
    cohEntry p g2 g3 c k1 r = fin (‖cohZ g2 g3 f r‖ ^ 2 / (quad23 g2 g3 f) ^ 2) := by
  unfold cohEntry
  simp only
  rw [quad23_fin hf, quad23_congr (f' := fun k2 k3 => cflOf ((f k2 k3 : ℂ) * phase (k2 * r))), cflOf_quad, cflAbs_of,
    abs_fin, fin_mul_fin, fin_mul_fin, fin_div_fin _ (by rw [abs_of_pos hs]; positivity), abs_of_pos hs]
  · congr 1
    unfold cohZ
    ring
  · intro x hx y hy
    rw [hf x hx y hy, cflMul_phase]

theorem sel_floored {eps : ℝ} {φ : Phi6} (h : φ.Floored eps) (c : Comp3) : ∃ y, eps ≤ y ∧ c.sel φ = fin y := by
  cases c
  · exact h.p11
  · exact h.p22
  · exact h.p33

/-- **C22** For positive wavenumbers every returned coherence is a real number in `[0, 1]`, equal to 1 at zero
separation and even in the separation.  (The value at `(c, r, k1)` does not depend on the other requested points.) -/
theorem C22_coherence_range (s : OPS) (hp : s.params.LifetimeFinite) (hg : s.cohGridUsed.Pairwise (· < ·))
    (h2 : 2 ≤ s.cohGridUsed.length) :
    ∃ v : Comp3 → ℝ → ℝ → ℝ,
      (∀ k1s seps : List ℝ, (∀ k1 ∈ k1s, 0 < k1) → (OPS.SpectralCoherence k1s seps s).1 =
        .ok ([Comp3.u, Comp3.v, Comp3.w].map fun c => seps.map fun r => k1s.map fun k1 => fin (v c r k1))) ∧
      ∀ c r k1, 0 < k1 → 0 ≤ v c r k1 ∧ v c r k1 ≤ 1 ∧ v c 0 k1 = 1 ∧ v c (-r) k1 = v c r k1 := by
  set g := s.cohGridUsed with hgdef
  let f : Comp3 → ℝ → ℝ → ℝ → ℝ := fun c k1 k2 k3 => (c.sel (cohPhi s.params ⟨k1, k2, k3⟩)).toReal
  have hf : ∀ c k1, 0 < k1 → ∀ k2 k3, c.sel (cohPhi s.params ⟨k1, k2, k3⟩) = fin (f c k1 k2 k3) ∧
      1e-32 ≤ f c k1 k2 k3 := by
    intro c k1 hk k2 k3
    obtain ⟨y, hy, h⟩ := sel_floored (cohPhi_floored s.params hp (k := ⟨k1, k2, k3⟩) hk.ne') c
    simp only [f, h, toReal_fin]
    exact ⟨trivial, hy⟩
  have hw := gridWidth_pos hg h2
  have hpos : ∀ c k1, 0 < k1 → 0 < quad23 g g (f c k1) := by
    intro c k1 hk
    refine lt_of_lt_of_le ?_ (quad23_ge (hg.imp le_of_lt) (hg.imp le_of_lt) fun x _ y _ => (hf c k1 hk x y).2)
    positivity
  refine ⟨fun c r k1 => ‖cohZ g g (f c k1) r‖ ^ 2 / (quad23 g g (f c k1)) ^ 2, ?_, ?_⟩
  · intro k1s seps hk
    rw [coherence_eq]
    congr 1
    apply List.map_congr_left
    intro c _
    apply List.map_congr_left
    intro r _
    apply List.map_congr_left
    intro k1 h1
    exact cohEntry_fin _ _ _ _ _ _ _ (fun k2 _ k3 _ => (hf c k1 (hk k1 h1) k2 k3).1) (hpos c k1 (hk k1 h1))
  · intro c r k1 hk
    have h0 := hpos c k1 hk
    refine ⟨by positivity, ?_, ?_, ?_⟩
    · rw [div_le_one (by positivity)]
      refine pow_le_pow_left₀ (norm_nonneg _) ?_ 2
      refine quad23_norm_le (hg.imp le_of_lt) (hg.imp le_of_lt) fun x _ y _ => ?_
      rw [norm_mul, norm_phase, mul_one, Complex.norm_real, Real.norm_eq_abs, abs_of_nonneg]
      exact le_trans (by norm_num) (hf c k1 hk x y).2
    · simp only [cohZ_zero, Complex.norm_real, Real.norm_eq_abs, abs_of_pos h0]
      exact div_self (by positivity)
    · simp only [cohZ_neg]

/-- Both the configured and the fallback grid satisfy the hypotheses of C22. -/
theorem C22_grids {L : ℝ} (hL : 0 < L) :
    (cohFallbackGrid L).Pairwise (· < ·) ∧ (cohFallbackGrid L).length = 201 ∧
    ∀ {p1 p2 : ℝ} (_ : p1 < p2) (n : ℕ), ((opsGrid p1 p2 n).map fun x => x / L).Pairwise (· < ·) := by
  refine ⟨?_, by simp [cohFallbackGrid, opsGrid_length], fun h n => ?_⟩
  · unfold cohFallbackGrid
    rw [List.pairwise_map]
    exact (opsGrid_sorted (by norm_num) 100).imp fun h => mul_lt_mul_of_pos_right h (by positivity)
  · rw [List.pairwise_map]
    exact (opsGrid_sorted h n).imp fun h => (div_lt_div_iff_of_pos_right hL).2 h

/-- **C23** (partial: objects whose coherence grid is configured at construction, and objects that have already
evaluated the coherence once).  Two histories ending at the same parameters give the same coherence.  Missing: the
fallback grid before the first evaluation, for which the property is false (`C23_disproof`). -/
theorem C23_history_partial (s : OPS) {g : List ℝ} (hg : s.cohGrid = some g) (h h' : List OPSCall)
    (hL : (runCalls h s).logL = (runCalls h' s).logL) (hT : (runCalls h s).logT = (runCalls h' s).logT)
    (hM : (runCalls h s).logM = (runCalls h' s).logM) (k1s seps : List ℝ) :
    (OPS.SpectralCoherence k1s seps (runCalls h s)).1 = (OPS.SpectralCoherence k1s seps (runCalls h' s)).1 := by
  have hs := runCalls_same h s
  have hs' := runCalls_same h' s
  have hss : (runCalls h s).Same (runCalls h' s) :=
    ⟨hs.hyp.symm.trans hs'.hyp, hs.kind.symm.trans hs'.kind, hs.sp.symm.trans hs'.sp, hs.grid.symm.trans hs'.grid,
      hs.L0.symm.trans hs'.L0, hs.T0.symm.trans hs'.T0, hs.approx.symm.trans hs'.approx⟩
  have keep : ∀ (h : List OPSCall) (s : OPS), s.cohGrid = some g → (runCalls h s).cohGrid = some g := by
    intro h
    induction h with
    | nil => intro s hs; exact hs
    | cons c h ih =>
      intro s hs
      refine ih (c.run s) ?_
      cases c with
      | expScales => exact hs
      | forward k => exact (forward_same k s).2.2.2.2.trans hs
      | eddyLifetime b => exact (eddy_same b s).2.2.2.2.trans hs
      | powerSpectra => exact (power_same s).2.2.2.2.trans hs
      | coherence k r =>
        refine (coherence_same k r s).2.2.2.2.trans ?_
        simp [OPS.cohGridUsed, hs]
      | setScales a b c => exact hs
  rw [coherence_eq, coherence_eq, params_congr hss hL hT hM]
  simp only [OPS.cohGridUsed, keep h s hg, keep h' s hg, Option.getD_some]

/-- **C23** What happens instead: the grid is fixed by the length scale at the time of the first evaluation, whatever
happens to the parameters later. -/
theorem C23_grid_frozen (s : OPS) (hs : s.cohGrid = none) (k1s seps : List ℝ) (h : List OPSCall) :
    (runCalls h (OPSCall.run (.coherence k1s seps) s)).cohGridUsed = cohFallbackGrid (Real.exp s.logL) := by
  have h0 : (OPSCall.run (.coherence k1s seps) s).cohGrid = some (cohFallbackGrid (Real.exp s.logL)) := by
    refine (coherence_same k1s seps s).2.2.2.2.trans ?_
    simp [OPS.cohGridUsed, hs]
  have keep : ∀ (h : List OPSCall) (s : OPS) (g : List ℝ), s.cohGrid = some g → (runCalls h s).cohGrid = some g := by
    intro h
    induction h with
    | nil => intro s g hs; exact hs
    | cons c h ih =>
      intro s g hs
      refine ih (c.run s) g ?_
      cases c with
      | expScales => exact hs
      | forward k => exact (forward_same k s).2.2.2.2.trans hs
      | eddyLifetime b => exact (eddy_same b s).2.2.2.2.trans hs
      | powerSpectra => exact (power_same s).2.2.2.2.trans hs
      | coherence k r =>
        refine (coherence_same k r s).2.2.2.2.trans ?_
        simp [OPS.cohGridUsed, hs]
      | setScales a b c => exact hs
  simp [OPS.cohGridUsed, keep h _ _ h0]

/-- For a small magnitude every density at `k1 = 1` is clamped to the floor. -/
theorem cohPhi_clamped (p : OPSParams) (hp : p.LifetimeFinite) (g : List ℝ) :
    ∃ m : ℝ, ∀ k2 ∈ g, ∀ k3 ∈ g, (cohPhi { p with logM := m } ⟨1, k2, k3⟩).p11 = fin 1e-32 := by
  have h4 : (4 * Real.pi) ≠ 0 := by positivity
  have h1 : ∀ k2 k3 : ℝ, ∃ c : ℝ, ∀ m, ∀ h : Real.exp m * c < 1e-32,
      (cohPhi { p with logM := m } ⟨1, k2, k3⟩).p11 = fin 1e-32 := by
    intro k2 k3
    have hk : (⟨1, k2, k3⟩ : K3).k1 ≠ 0 := one_ne_zero
    obtain ⟨b, hb⟩ := hp ⟨1, k2, k3⟩ hk
    obtain ⟨e, -, he⟩ := energyE0_pos p.sp p.L_pos hk b
    refine ⟨e / (4 * Real.pi) / (kk0R ⟨1, k2, k3⟩ b * kk0R ⟨1, k2, k3⟩ b) *
      (kk0R ⟨1, k2, k3⟩ b - 1 * 1 - 2 * 1 * k30R ⟨1, k2, k3⟩ b * z1R ⟨1, k2, k3⟩ b +
        sR ⟨1, k2, k3⟩ * (z1R ⟨1, k2, k3⟩ b * z1R ⟨1, k2, k3⟩ b)), fun m hm => ?_⟩
    have hL : ({ p with logM := m } : OPSParams).L = p.L := rfl
    have hT : ({ p with logM := m } : OPSParams).T = p.T := rfl
    have hM : ({ p with logM := m } : OPSParams).M = Real.exp m := rfl
    unfold cohPhi
    simp only [hL, hT, hM, hb, he, fin_div_fin _ h4]
    rw [phiRaw_fin hk]
    refine floorEps_of_lt ?_
    refine lt_of_eq_of_lt ?_ hm
    ring
  choose c hc using h1
  let cs : List ℝ := (g.map fun k2 => (g.map fun k3 => |c k2 k3|).sum)
  have hle : ∀ k2 ∈ g, ∀ k3 ∈ g, c k2 k3 ≤ cs.sum := by
    intro k2 h2 k3 h3
    refine (le_abs_self _).trans (le_trans ?_ (List.single_le_sum ?_ ((g.map fun k3 => |c k2 k3|).sum) ?_))
    · refine List.single_le_sum ?_ _ (List.mem_map.2 ⟨k3, h3, rfl⟩)
      intro x hx
      obtain ⟨y, -, rfl⟩ := List.mem_map.1 hx
      positivity
    · intro x hx
      obtain ⟨y, -, rfl⟩ := List.mem_map.1 hx
      refine List.sum_nonneg ?_
      intro x hx
      obtain ⟨y, -, rfl⟩ := List.mem_map.1 hx
      positivity
    · exact List.mem_map.2 ⟨k2, h2, rfl⟩
  have hb : 0 < |cs.sum| + 1 := by positivity
  refine ⟨Real.log (1e-33 / (|cs.sum| + 1)), fun k2 h2 k3 h3 => hc k2 k3 _ ?_⟩
  rw [Real.exp_log (by positivity)]
  calc 1e-33 / (|cs.sum| + 1) * c k2 k3 ≤ 1e-33 / (|cs.sum| + 1) * (|cs.sum| + 1) := by
        refine mul_le_mul_of_nonneg_left ?_ (by positivity)
        have := hle k2 h2 k3 h3
        have := le_abs_self cs.sum
        linarith
    _ = 1e-33 := by field_simp
    _ < 1e-32 := by norm_num

/-- Normalised phase sum of a grid. -/
def gridPhase (g : List ℝ) (r : ℝ) : ℂ := trapz g (g.map fun x => phase (x * r))

theorem trapz_const (g : List ℝ) (c : ℝ) : trapz g (g.map fun _ => c) = c * gridWidth g := by
  induction g with
  | nil => simp [trapz, gridWidth]
  | cons x l ih =>
    cases l with
    | nil => simp [trapz, gridWidth]
    | cons y l =>
      rw [trapz_cons2, ih]
      simp only [gridWidth, List.headD_cons, smul_eq_mul]
      have : (x :: y :: l).getLastD 0 = (y :: l).getLastD 0 := by simp
      rw [this]
      ring

theorem gridPhase_le {g : List ℝ} (hg : g.Pairwise (· ≤ ·)) (r : ℝ) : ‖gridPhase g r‖ ≤ gridWidth g := by
  have := trapz_norm_le hg (fun x => phase (x * r)) (b := fun _ => 1) (by intro x _; rw [norm_phase])
  rwa [trapz_const, one_mul] at this

theorem gridPhase_lt {x y : ℝ} {l : List ℝ} (hg : (x :: y :: l).Pairwise (· < ·)) :
    ‖gridPhase (x :: y :: l) (Real.pi / (y - x))‖ < gridWidth (x :: y :: l) := by
  have hxy : x < y := (List.pairwise_cons.1 hg).1 y (by simp)
  have hd : y - x ≠ 0 := by linarith
  have hsum : phase (x * (Real.pi / (y - x))) + phase (y * (Real.pi / (y - x))) = 0 := by
    have : y * (Real.pi / (y - x)) = x * (Real.pi / (y - x)) + Real.pi := by field_simp; ring
    rw [this]
    unfold phase
    rw [Complex.ofReal_add, add_mul, Complex.exp_add, Complex.exp_pi_mul_I]
    ring
  unfold gridPhase
  rw [trapz_cons2, hsum, smul_zero, zero_add]
  have h := gridPhase_le ((List.pairwise_cons.1 hg).2.imp le_of_lt) (Real.pi / (y - x))
  unfold gridPhase at h
  refine lt_of_le_of_lt h ?_
  simp only [gridWidth, List.headD_cons, List.getLastD_cons]
  linarith

theorem gridPhase_scale (g : List ℝ) (c r : ℝ) : gridPhase (g.map fun x => x * c) r = c • gridPhase g (c * r) := by
  induction g with
  | nil => simp [gridPhase, trapz]
  | cons x l ih =>
    cases l with
    | nil => simp [gridPhase, trapz]
    | cons y l =>
      unfold gridPhase at ih ⊢
      simp only [List.map_cons] at ih ⊢
      have e1 : x * c * r = x * (c * r) := by ring
      have e2 : y * c * r = y * (c * r) := by ring
      have e3 : (y * c - x * c) / 2 = c * ((y - x) / 2) := by ring
      rw [trapz, trapz, ih, e1, e2, e3, mul_smul, ← smul_add c]

theorem gridWidth_scale (g : List ℝ) (c : ℝ) : gridWidth (g.map fun x => x * c) = c * gridWidth g := by
  have h : ∀ (l : List ℝ) (d : ℝ), (l.map fun x => x * c).getLastD (d * c) = l.getLastD d * c := by
    intro l
    induction l with
    | nil => intro d; simp
    | cons x l ih => intro d; simp only [List.map_cons, List.getLastD_cons]; exact ih x
  cases g with
  | nil => simp [gridWidth]
  | cons x l =>
    simp only [gridWidth, List.map_cons, List.headD_cons, List.getLastD_cons]
    rw [h]
    ring

theorem gridPhase_continuous (g : List ℝ) : Continuous (gridPhase g) := by
  unfold gridPhase
  induction g with
  | nil => simpa [trapz] using continuous_const
  | cons x l ih =>
    cases l with
    | nil => simpa [trapz] using continuous_const
    | cons y l =>
      simp only [trapz_cons2]
      refine Continuous.add ?_ ih
      unfold phase
      fun_prop

theorem gridPhase_zero (g : List ℝ) : gridPhase g 0 = gridWidth g := by
  have := trapz_map (fun x : ℝ => (x:ℂ)) (by simp) (by simp) (by simp) g (fun _ => 1)
  rw [trapz_const, one_mul] at this
  rw [← this]
  unfold gridPhase
  apply trapz_congr
  simp [phase]

/-- Entry of the coherence on a clamped grid. -/
theorem cohEntry_clamped (p : OPSParams) {g : List ℝ} (hg : g.Pairwise (· < ·)) (h2 : 2 ≤ g.length)
    (h : ∀ k2 ∈ g, ∀ k3 ∈ g, (cohPhi p ⟨1, k2, k3⟩).p11 = fin 1e-32) (r : ℝ) :
    cohEntry p g g .u 1 r = fin ((‖gridPhase g r‖ / gridWidth g) ^ 2) := by
  have hw := gridWidth_pos hg h2
  have hq : quad23 g g (fun _ _ => (1e-32:ℝ)) = 1e-32 * gridWidth g * gridWidth g := by
    unfold quad23
    rw [trapz_const, trapz_const]
  rw [cohEntry_fin p g g .u 1 r (fun _ _ => 1e-32) h (by rw [hq]; positivity), hq]
  have hz : cohZ g g (fun _ _ => (1e-32:ℝ)) r = ((1e-32 * gridWidth g : ℝ) : ℂ) * gridPhase g r := by
    unfold cohZ quad23 gridPhase
    have : ∀ k2 : ℝ, trapz g (g.map fun _ => (((1e-32:ℝ)):ℂ) * phase (k2 * r)) =
        ((1e-32 * gridWidth g : ℝ) : ℂ) * phase (k2 * r) := by
      intro k2
      have := trapz_map (fun x : ℝ => (x:ℂ) * phase (k2 * r)) (by simp) (fun a b => by push_cast; ring)
        (fun a b => by simp [mul_assoc]) g (fun _ => (1e-32:ℝ))
      rw [trapz_const] at this
      exact this
    simp only [this]
    exact trapz_map (fun z : ℂ => ((1e-32 * gridWidth g : ℝ) : ℂ) * z) (by simp) (fun a b => mul_add _ _ _)
      (fun a b => by simp only [Complex.real_smul]; ring) g (fun k2 => phase (k2 * r))
  rw [hz, norm_mul, Complex.norm_real, Real.norm_eq_abs, abs_of_pos (by positivity)]
  congr 1
  field_simp

/-- **C23** The property itself is false: for every object with constant eddy lifetime and unit length scale there are scales, a
wavenumber and a separation such that an object that evaluated the coherence before its length scale was changed
returns a different value from an object that did not. -/
theorem C23_disproof (s : OPS) (hs : s.cohGrid = none) (h0 : s.logL = 0) (hk : s.kind = .const) :
    ∃ b m r : ℝ,
      (OPS.SpectralCoherence [1] [r] (runCalls [.coherence [1] [r], .setScales b 0 m] s)).1 ≠
      (OPS.SpectralCoherence [1] [r] (runCalls [.setScales b 0 m] s)).1 := by
  set G := cohFallbackGrid 1 with hG
  have hGs : G.Pairwise (· < ·) := (C22_grids one_pos).1
  have hGl : G.length = 201 := (C22_grids one_pos).2.1
  obtain ⟨x, y, l, hxy⟩ : ∃ x y l, G = x :: y :: l := by
    rcases hgg : G with _ | ⟨x, _ | ⟨y, l⟩⟩
    · simp [hgg] at hGl
    · simp [hgg] at hGl
    · exact ⟨x, y, l, rfl⟩
  have hw : 0 < gridWidth G := gridWidth_pos hGs (by omega)
  set r := Real.pi / (y - x) with hr
  have hlt : ‖gridPhase G r‖ < gridWidth G := by
    rw [hxy] at hGs ⊢
    exact gridPhase_lt hGs
  -- a scale at which the phase sum differs
  obtain ⟨c, hc0, hc⟩ : ∃ c : ℝ, 0 < c ∧ ‖gridPhase G (c * r)‖ ≠ ‖gridPhase G r‖ := by
    by_contra hcon
    push Not at hcon
    have h1 : Tendsto (fun c : ℝ => ‖gridPhase G (c * r)‖) (𝓝[>] 0) (𝓝 ‖gridPhase G (0 * r)‖) := by
      have : Continuous fun c : ℝ => ‖gridPhase G (c * r)‖ :=
        (gridPhase_continuous G).norm.comp (continuous_id.mul continuous_const)
      exact (this.tendsto 0).mono_left nhdsWithin_le_nhds
    have h2 : Tendsto (fun c : ℝ => ‖gridPhase G (c * r)‖) (𝓝[>] 0) (𝓝 ‖gridPhase G r‖) := by
      refine (tendsto_const_nhds).congr' ?_
      filter_upwards [self_mem_nhdsWithin] with c hc
      exact (hcon c hc).symm
    have := tendsto_nhds_unique h1 h2
    rw [zero_mul, gridPhase_zero, Complex.norm_real, Real.norm_eq_abs, abs_of_pos hw] at this
    linarith
  set b := -Real.log c with hb
  have hbc : 1 / Real.exp b = c := by rw [hb, Real.exp_neg, Real.exp_log hc0]; simp
  have hG2 : cohFallbackGrid (Real.exp b) = G.map fun x => x * c := by
    rw [hG]
    unfold cohFallbackGrid
    rw [hbc, List.map_map]
    apply List.map_congr_left
    intro z _
    simp
  have hG2s : (cohFallbackGrid (Real.exp b)).Pairwise (· < ·) := (C22_grids (Real.exp_pos b)).1
  have hG2l : (cohFallbackGrid (Real.exp b)).length = 201 := (C22_grids (Real.exp_pos b)).2.1
  let p : OPSParams := { hyp := s.hyp, ty := .const, sp := s.sp, logL := b, logT := 0, logM := 0 }
  have hp : p.LifetimeFinite := lifetimeFinite_of p trivial
  obtain ⟨m, hm⟩ := cohPhi_clamped p hp (G ++ cohFallbackGrid (Real.exp b))
  refine ⟨b, m, r, ?_⟩
  have hA : (runCalls [.coherence [1] [r], .setScales b 0 m] s).cohGridUsed = G := by
    have := C23_grid_frozen s hs [1] [r] [.setScales b 0 m]
    rw [h0, Real.exp_zero] at this
    exact this
  have hB : (runCalls [.setScales b 0 m] s).cohGridUsed = cohFallbackGrid (Real.exp b) := by
    simp [runCalls, OPSCall.run, OPS.cohGridUsed, hs]
  have par : ∀ t : OPS, t.kind = .const → t.hyp = s.hyp → t.sp = s.sp → t.logL = b → t.logT = 0 → t.logM = m →
      t.params = { p with logM := m } := by
    intro t h1 h2 h3 h4 h5 h6
    have hty : t.initApprox.ty = .const := by
      unfold OPS.ty
      rw [(initApprox_fields t).2.1, h1]
    unfold OPS.params
    rw [hty, h2, h3, h4, h5, h6]
  have sA := runCalls_same [.coherence [1] [r], .setScales b 0 m] s
  have sB := runCalls_same [.setScales b 0 m] s
  have pA := par (runCalls [.coherence [1] [r], .setScales b 0 m] s) (sA.kind.symm.trans hk) sA.hyp.symm sA.sp.symm
    rfl rfl rfl
  have pB := par (runCalls [.setScales b 0 m] s) (sB.kind.symm.trans hk) sB.hyp.symm sB.sp.symm rfl rfl rfl
  rw [coherence_eq, coherence_eq, hA, hB, pA, pB]
  have eA := cohEntry_clamped { p with logM := m } hGs (by omega)
    (fun k2 h2 k3 h3 => hm k2 (by simp [h2]) k3 (by simp [h3])) r
  have eB := cohEntry_clamped { p with logM := m } hG2s (by omega)
    (fun k2 h2 k3 h3 => hm k2 (by simp [h2]) k3 (by simp [h3])) r
  intro heq
  simp only [List.map_cons, List.map_nil, Except.ok.injEq, List.cons.injEq, and_true] at heq
  have h1 := heq.1
  rw [eA, eB, fin_inj, hG2, gridPhase_scale, gridWidth_scale, norm_smul, Real.norm_eq_abs, abs_of_pos hc0,
    mul_div_mul_left _ _ hc0.ne'] at h1
  have h2 := (pow_left_inj₀ (by positivity) (by positivity) two_ne_zero).1 h1
  rw [div_left_inj' hw.ne'] at h2
  exact hc h2.symm

/-- The hypotheses of the disproof are met by a freshly constructed object with unit scales and no coherence grid. -/
example (hyp : ℝ → ℝ) : ∃ s, OPS.init hyp .const .vkLike 1 1 1 (-3) 3 100 none = .ok s ∧ s.cohGrid = none ∧
    s.logL = 0 ∧ s.kind = .const :=
  ⟨_, if_pos ⟨one_pos, one_pos, one_pos⟩, rfl, by simp, rfl⟩

end
end Verif
