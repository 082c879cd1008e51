import Verif.Lemmas.OnePoint
import Mathlib.Analysis.Complex.Trigonometric
import Mathlib.Topology.Algebra.Order.LiminfLimsup
import Mathlib.Analysis.Complex.ExponentialBounds

/-!
# One-point spectra and coherence: C17 - C25
-/

namespace Verif
open Fl Filter Topology

noncomputable section

/-- **C17** The quadrature grid has `2N+1` points, is strictly increasing, antisymmetric, and its midpoint is 0. -/
theorem C17_grid {p1 p2 : ℝ} (h : p1 < p2) (n : ℕ) :
    (opsGrid p1 p2 n).length = 2 * n + 1 ∧
    (opsGrid p1 p2 n).Pairwise (· < ·) ∧
    (∀ i (hi : i < (opsGrid p1 p2 n).length),
      (opsGrid p1 p2 n)[i] = -(opsGrid p1 p2 n)[(opsGrid p1 p2 n).length - 1 - i]'(by omega)) ∧
    (opsGrid p1 p2 n)[n]'(by rw [opsGrid_length]; omega) = 0 := by
  have hanti : ∀ i (hi : i < (opsGrid p1 p2 n).length),
      (opsGrid p1 p2 n)[i] = -(opsGrid p1 p2 n)[(opsGrid p1 p2 n).length - 1 - i]'(by omega) := by
    intro i hi
    have hs := opsGrid_symm p1 p2 n
    have h1 : (opsGrid p1 p2 n)[i] = ((opsGrid p1 p2 n).reverse.map (fun x => -x))[i]'(by simpa using hi) := by
      congr 1; exact hs.symm
    rw [h1, List.getElem_map, List.getElem_reverse]
  refine ⟨opsGrid_length p1 p2 n, opsGrid_sorted h n, hanti, ?_⟩
  have hl := opsGrid_length p1 p2 n
  have := hanti n (by omega)
  have e : (opsGrid p1 p2 n).length - 1 - n = n := by omega
  simp only [e] at this
  linarith

/-- **C17** End points: the grid reaches from `-10^p2` to `10^p2`. -/
theorem C17_range {p1 p2 : ℝ} (n : ℕ) (hn : 2 ≤ n) :
    (opsGrid p1 p2 n).getLast? = some ((10:ℝ) ^ p2) ∧ (opsGrid p1 p2 n).head? = some (-(10:ℝ) ^ p2) := by
  obtain ⟨m, rfl⟩ : ∃ m, n = m + 2 := ⟨n - 2, by omega⟩
  have hm : ((m:ℝ) + 2 - 1) ≠ 0 := by
    have : (0:ℝ) ≤ m := by positivity
    intro h
    linarith
  have hl : (logspace p1 p2 (m + 2)).getLast? = some ((10:ℝ) ^ p2) := by
    unfold logspace linspace
    rw [List.range_succ]
    have : p1 + (p2 - p1) * (((m + 1 : ℕ) : ℝ)) / (((m + 2 : ℕ) : ℝ) - 1) = p2 := by
      push_cast
      have h' : (m:ℝ) + 2 - 1 = m + 1 := by ring
      rw [h'] at hm ⊢
      field_simp
      ring
    simp only [List.map_append, List.map_cons, List.map_nil, this]
    simp
  constructor
  · unfold opsGrid
    simp [List.getLast?_append, List.getLast?_cons, hl]
  · unfold opsGrid
    simp [List.head?_append, hl]

example : (-3:ℝ) < 3 := by norm_num

/-- Parameters with which the object evaluates the lifetime (regression cache included). -/
def OPS.params (s : OPS) : OPSParams :=
  { hyp := s.hyp, ty := s.initApprox.ty, sp := s.sp, logL := s.logL, logT := s.logT, logM := s.logM }

/-- Everything an evaluation can depend on, apart from the three log scales and the coherence grid. -/
structure OPS.Same (s s' : OPS) : Prop where
  hyp : s.hyp = s'.hyp
  kind : s.kind = s'.kind
  sp : s.sp = s'.sp
  grid : s.grid = s'.grid
  L0 : s.L0 = s'.L0
  T0 : s.T0 = s'.T0
  approx : s.initApprox.approx = s'.initApprox.approx

theorem OPS.Same.trans {a b c : OPS} (h : a.Same b) (h' : b.Same c) : a.Same c :=
  ⟨h.hyp.trans h'.hyp, h.kind.trans h'.kind, h.sp.trans h'.sp, h.grid.trans h'.grid, h.L0.trans h'.L0,
    h.T0.trans h'.T0, h.approx.trans h'.approx⟩

theorem OPS.Same.refl (a : OPS) : a.Same a := ⟨rfl, rfl, rfl, rfl, rfl, rfl, rfl⟩

theorem initApprox_fields (s : OPS) : s.initApprox.hyp = s.hyp ∧ s.initApprox.kind = s.kind ∧ s.initApprox.sp = s.sp ∧
    s.initApprox.grid = s.grid ∧ s.initApprox.L0 = s.L0 ∧ s.initApprox.T0 = s.T0 ∧ s.initApprox.logL = s.logL ∧
    s.initApprox.logT = s.logT ∧ s.initApprox.logM = s.logM ∧ s.initApprox.cohGrid = s.cohGrid ∧
    s.initApprox.k1s = s.k1s ∧ s.initApprox.beta = s.beta ∧ s.initApprox.E0 = s.E0 ∧
    s.initApprox.scales = s.scales := ⟨rfl, rfl, rfl, rfl, rfl, rfl, rfl, rfl, rfl, rfl, rfl, rfl, rfl, rfl⟩

theorem initApprox_idem (s : OPS) : s.initApprox.initApprox = s.initApprox := by
  rcases hk : s.kind <;> rcases ha : s.approx <;> simp [OPS.initApprox, hk, ha]

theorem initApprox_congr {s s' : OPS} (h1 : s.kind = s'.kind) (h2 : s.approx = s'.approx) (h3 : s.hyp = s'.hyp)
    (h4 : s.L0 = s'.L0) (h5 : s.T0 = s'.T0) : s.initApprox.approx = s'.initApprox.approx := by
  unfold OPS.initApprox
  simp only [h1, h2, h3, h4, h5]

theorem same_initApprox (s : OPS) : s.Same s.initApprox := by
  obtain ⟨h1, h2, h3, h4, h5, h6, -⟩ := initApprox_fields s
  exact ⟨h1.symm, h2.symm, h3.symm, h4.symm, h5.symm, h6.symm, by rw [initApprox_idem]⟩

theorem ty_congr {s s' : OPS} (h1 : s.kind = s'.kind) (h2 : s.approx = s'.approx) : s.ty = s'.ty := by
  unfold OPS.ty; rw [h1, h2]

theorem same_ty {s s' : OPS} (h : s.Same s') : s.initApprox.ty = s'.initApprox.ty :=
  ty_congr (by rw [(initApprox_fields s).2.1, (initApprox_fields s').2.1, h.kind]) h.approx

theorem params_congr {s s' : OPS} (h : s.Same s') (hL : s.logL = s'.logL) (hT : s.logT = s'.logT)
    (hM : s.logM = s'.logM) : s.params = s'.params := by
  unfold OPS.params; rw [same_ty h, h.hyp, h.sp, hL, hT, hM]

/-- Closed form of `forward`. -/
theorem forward_eq (k1s : List ℝ) (s : OPS) :
    (OPS.forward k1s s).1 = .ok (phiSelectors.map fun sel => k1s.map fun k1 =>
      fin k1 * quad23 s.grid s.grid fun k2 k3 => sel (opsPhi s.params ⟨k1, k2, k3⟩)) := by
  have e : ({ s.expScales with k1s := some k1s } : OPS).initApprox.approx = s.initApprox.approx :=
    initApprox_congr rfl rfl rfl rfl rfl
  have f := initApprox_fields ({ s.expScales with k1s := some k1s } : OPS)
  have ht : ({ s.expScales with k1s := some k1s } : OPS).initApprox.ty = s.initApprox.ty :=
    ty_congr (by rw [f.2.1, (initApprox_fields s).2.1]; rfl) e
  unfold OPS.forward OPS.EddyLifetime
  simp only [Bool.false_eq_true, if_false, OPS.expScales]
  simp only [OPS.expScales] at f ht
  simp only [OPS.PowerSpectra, f, ht]
  rfl

theorem forward_same (k1s : List ℝ) (s : OPS) : s.Same (OPS.forward k1s s).2 ∧
    (OPS.forward k1s s).2.logL = s.logL ∧ (OPS.forward k1s s).2.logT = s.logT ∧
    (OPS.forward k1s s).2.logM = s.logM ∧ (OPS.forward k1s s).2.cohGrid = s.cohGrid := by
  have e : ({ s.expScales with k1s := some k1s } : OPS).initApprox.approx = s.initApprox.approx :=
    initApprox_congr rfl rfl rfl rfl rfl
  have f := initApprox_fields ({ s.expScales with k1s := some k1s } : OPS)
  have g := initApprox_idem ({ s.expScales with k1s := some k1s } : OPS)
  unfold OPS.forward OPS.EddyLifetime
  simp only [Bool.false_eq_true, if_false, OPS.expScales]
  simp only [OPS.expScales] at f e g
  simp only [OPS.PowerSpectra, f]
  refine ⟨⟨f.1.symm, f.2.1.symm, f.2.2.1.symm, f.2.2.2.1.symm, f.2.2.2.2.1.symm, f.2.2.2.2.2.1.symm, ?_⟩, ?_⟩
  · rw [← e]
    conv_lhs => rw [← g]
    exact initApprox_congr rfl rfl rfl rfl rfl
  · simp

theorem eddy_same (b : Bool) (s : OPS) : s.Same (OPS.EddyLifetime b s).2 ∧
    (OPS.EddyLifetime b s).2.logL = s.logL ∧ (OPS.EddyLifetime b s).2.logT = s.logT ∧
    (OPS.EddyLifetime b s).2.logM = s.logM ∧ (OPS.EddyLifetime b s).2.cohGrid = s.cohGrid := by
  cases b with
  | true =>
    unfold OPS.EddyLifetime
    have f := initApprox_fields s.expScales
    have e : s.expScales.initApprox.approx = s.initApprox.approx := initApprox_congr rfl rfl rfl rfl rfl
    simp only [if_true]
    refine ⟨⟨f.1.symm, f.2.1.symm, f.2.2.1.symm, f.2.2.2.1.symm, f.2.2.2.2.1.symm, f.2.2.2.2.2.1.symm, ?_⟩, ?_⟩
    · rw [initApprox_idem, e]
    · rw [f.2.2.2.2.2.2.1, f.2.2.2.2.2.2.2.1, f.2.2.2.2.2.2.2.2.1, f.2.2.2.2.2.2.2.2.2.1]
      exact ⟨rfl, rfl, rfl, rfl⟩
  | false =>
    unfold OPS.EddyLifetime
    simp only [Bool.false_eq_true, if_false]
    have f := initApprox_fields s
    split
    · exact ⟨same_initApprox s, f.2.2.2.2.2.2.1, f.2.2.2.2.2.2.2.1, f.2.2.2.2.2.2.2.2.1, f.2.2.2.2.2.2.2.2.2.1⟩
    · exact ⟨.refl s, rfl, rfl, rfl, rfl⟩

theorem power_same (s : OPS) : s.Same (OPS.PowerSpectra s).2 ∧
    (OPS.PowerSpectra s).2.logL = s.logL ∧ (OPS.PowerSpectra s).2.logT = s.logT ∧
    (OPS.PowerSpectra s).2.logM = s.logM ∧ (OPS.PowerSpectra s).2.cohGrid = s.cohGrid := by
  unfold OPS.PowerSpectra
  split
  · exact ⟨⟨rfl, rfl, rfl, rfl, rfl, rfl, initApprox_congr rfl rfl rfl rfl rfl⟩, rfl, rfl, rfl, rfl⟩
  · exact ⟨.refl s, rfl, rfl, rfl, rfl⟩

/-- The grid on which `SpectralCoherence` integrates in a given state. -/
def OPS.cohGridUsed (s : OPS) : List ℝ := s.cohGrid.getD (cohFallbackGrid (Real.exp s.logL))

/-- Closed form of `SpectralCoherence`. -/
theorem coherence_eq (k1s seps : List ℝ) (s : OPS) :
    (OPS.SpectralCoherence k1s seps s).1 = .ok ([Comp3.u, Comp3.v, Comp3.w].map fun c => seps.map fun r =>
      k1s.map fun k1 => cohEntry s.params s.cohGridUsed s.cohGridUsed c k1 r) := by
  unfold OPS.SpectralCoherence OPS.cohGridUsed
  rcases hc : s.cohGrid with _ | g
  · have e : ({ s.expScales with cohGrid := some (cohFallbackGrid (Real.exp s.logL)) } : OPS).expScales.initApprox.approx
        = s.initApprox.approx := initApprox_congr rfl rfl rfl rfl rfl
    have f := initApprox_fields
      ({ s.expScales with cohGrid := some (cohFallbackGrid (Real.exp s.logL)) } : OPS).expScales
    have ht : ({ s.expScales with cohGrid := some (cohFallbackGrid (Real.exp s.logL)) } : OPS).expScales.initApprox.ty
        = s.initApprox.ty := ty_congr (by rw [f.2.1, (initApprox_fields s).2.1]; rfl) e
    simp only [OPS.expScales, hc] at f ht ⊢
    simp only [OPS.EddyLifetime, if_true, OPS.expScales, f, ht]
    rfl
  · have e : s.expScales.expScales.initApprox.approx = s.initApprox.approx := initApprox_congr rfl rfl rfl rfl rfl
    have f := initApprox_fields s.expScales.expScales
    have ht : s.expScales.expScales.initApprox.ty = s.initApprox.ty :=
      ty_congr (by rw [f.2.1, (initApprox_fields s).2.1]; rfl) e
    simp only [OPS.expScales, hc] at f ht ⊢
    simp only [OPS.EddyLifetime, if_true, OPS.expScales, f, ht]
    rfl

theorem coherence_same (k1s seps : List ℝ) (s : OPS) : s.Same (OPS.SpectralCoherence k1s seps s).2 ∧
    (OPS.SpectralCoherence k1s seps s).2.logL = s.logL ∧ (OPS.SpectralCoherence k1s seps s).2.logT = s.logT ∧
    (OPS.SpectralCoherence k1s seps s).2.logM = s.logM ∧
    (OPS.SpectralCoherence k1s seps s).2.cohGrid = some s.cohGridUsed := by
  unfold OPS.SpectralCoherence OPS.cohGridUsed
  rcases hc : s.cohGrid with _ | g
  · have := eddy_same true ({ s.expScales with cohGrid := some (cohFallbackGrid (Real.exp s.logL)) } : OPS)
    have e : s.Same ({ s.expScales with cohGrid := some (cohFallbackGrid (Real.exp s.logL)) } : OPS) :=
      ⟨rfl, rfl, rfl, rfl, rfl, rfl, initApprox_congr rfl rfl rfl rfl rfl⟩
    simp only [OPS.expScales, hc] at this e ⊢
    simp only [OPS.EddyLifetime, if_true] at this ⊢
    exact ⟨e.trans this.1, this.2.1, this.2.2.1, this.2.2.2.1, this.2.2.2.2⟩
  · have := eddy_same true s.expScales
    have e : s.Same s.expScales := ⟨rfl, rfl, rfl, rfl, rfl, rfl, initApprox_congr rfl rfl rfl rfl rfl⟩
    simp only [OPS.expScales, hc] at this e ⊢
    simp only [OPS.EddyLifetime, if_true] at this ⊢
    exact ⟨e.trans this.1, this.2.1, this.2.2.1, this.2.2.2.1, this.2.2.2.2⟩

/-- Run a history of calls. -/
def runCalls (h : List OPSCall) (s : OPS) : OPS := h.foldl (fun s c => c.run s) s

/-- A call that evaluates without changing parameters. -/
def OPSCall.Evaluates : OPSCall → Prop
  | .setScales _ _ _ => False
  | _ => True

theorem call_same (c : OPSCall) (s : OPS) : s.Same (c.run s) := by
  cases c with
  | expScales => exact ⟨rfl, rfl, rfl, rfl, rfl, rfl, initApprox_congr rfl rfl rfl rfl rfl⟩
  | forward k => exact (forward_same k s).1
  | eddyLifetime b => exact (eddy_same b s).1
  | powerSpectra => exact (power_same s).1
  | coherence k r => exact (coherence_same k r s).1
  | setScales a b c => exact ⟨rfl, rfl, rfl, rfl, rfl, rfl, initApprox_congr rfl rfl rfl rfl rfl⟩

theorem call_logs {c : OPSCall} (hc : c.Evaluates) (s : OPS) :
    (c.run s).logL = s.logL ∧ (c.run s).logT = s.logT ∧ (c.run s).logM = s.logM := by
  cases c with
  | expScales => exact ⟨rfl, rfl, rfl⟩
  | forward k => have := forward_same k s; exact ⟨this.2.1, this.2.2.1, this.2.2.2.1⟩
  | eddyLifetime b => have := eddy_same b s; exact ⟨this.2.1, this.2.2.1, this.2.2.2.1⟩
  | powerSpectra => have := power_same s; exact ⟨this.2.1, this.2.2.1, this.2.2.2.1⟩
  | coherence k r => have := coherence_same k r s; exact ⟨this.2.1, this.2.2.1, this.2.2.2.1⟩
  | setScales a b c => exact absurd hc id

theorem runCalls_same (h : List OPSCall) (s : OPS) : s.Same (runCalls h s) := by
  induction h generalizing s with
  | nil => exact .refl s
  | cons c h ih => exact (call_same c s).trans (ih (c.run s))

theorem runCalls_logs {h : List OPSCall} (hh : ∀ c ∈ h, c.Evaluates) (s : OPS) :
    (runCalls h s).logL = s.logL ∧ (runCalls h s).logT = s.logT ∧ (runCalls h s).logM = s.logM := by
  induction h generalizing s with
  | nil => exact ⟨rfl, rfl, rfl⟩
  | cons c h ih =>
    obtain ⟨a1, a2, a3⟩ := ih (fun x hx => hh x (by simp [hx])) (c.run s)
    obtain ⟨b1, b2, b3⟩ := call_logs (hh c (by simp)) s
    exact ⟨a1.trans b1, a2.trans b2, a3.trans b3⟩

/-- **C20** `forward` returns the same values after any history of evaluations. -/
theorem C20_forward_repeatable (s : OPS) (h : List OPSCall) (hh : ∀ c ∈ h, c.Evaluates) (k1s : List ℝ) :
    (OPS.forward k1s (runCalls h s)).1 = (OPS.forward k1s s).1 := by
  obtain ⟨hL, hT, hM⟩ := runCalls_logs hh s
  have hs := runCalls_same h s
  rw [forward_eq, forward_eq, ← hs.grid, params_congr hs hL.symm hT.symm hM.symm]

/-- **C20** More generally, two histories ending at the same parameter values (whatever they were in between) evaluate
identically. -/
theorem C20_only_current_parameters (s : OPS) (h h' : List OPSCall)
    (hL : (runCalls h s).logL = (runCalls h' s).logL) (hT : (runCalls h s).logT = (runCalls h' s).logT)
    (hM : (runCalls h s).logM = (runCalls h' s).logM) (k1s : List ℝ) :
    (OPS.forward k1s (runCalls h s)).1 = (OPS.forward k1s (runCalls h' s)).1 := by
  have hs := runCalls_same h s
  have hs' := runCalls_same h' s
  have hss : (runCalls h s).Same (runCalls h' s) :=
    ⟨hs.hyp.symm.trans hs'.hyp, hs.kind.symm.trans hs'.kind, hs.sp.symm.trans hs'.sp, hs.grid.symm.trans hs'.grid,
      hs.L0.symm.trans hs'.L0, hs.T0.symm.trans hs'.T0, hs.approx.symm.trans hs'.approx⟩
  rw [forward_eq, forward_eq, hss.grid, params_congr hss hL hT hM]

example : ∀ c ∈ [OPSCall.forward [1], .powerSpectra, .eddyLifetime true, .coherence [1] [2]], c.Evaluates := by
  simp [OPSCall.Evaluates]

/-- **C20** `forward` never raises, and has one row per component and one column per wavenumber. -/
theorem C20_forward_total (s : OPS) (k1s : List ℝ) :
    ∃ rows, (OPS.forward k1s s).1 = .ok rows ∧ rows.length = 6 ∧ ∀ row ∈ rows, row.length = k1s.length := by
  refine ⟨_, forward_eq k1s s, by simp [phiSelectors], ?_⟩
  intro row hrow
  obtain ⟨sel, -, rfl⟩ := List.mem_map.1 hrow
  simp

/-- **C18** At positive wavenumbers the three predicted auto-spectra are finite and strictly positive; more precisely at
least `k1 * 1e-12 * width^2`.  (`C19` covers the remaining rows.) -/
theorem C18_auto_spectra_positive (s : OPS) (hp : s.params.LifetimeFinite) (hg : s.grid.Pairwise (· < ·))
    (k1s : List ℝ) (hk : ∀ k1 ∈ k1s, 0 < k1) :
    ∃ uu vv ww uw vw uv : List ℝ,
      (OPS.forward k1s s).1 = .ok ([uu, vv, ww, uw, vw, uv].map fun row => row.map fin) ∧
      ∀ row ∈ [uu, vv, ww], List.Forall₂ (fun k1 x => k1 * (1e-12 * gridWidth s.grid * gridWidth s.grid) ≤ x) k1s row := by
  have key : ∀ (sel : Phi6 → Fl), (∀ φ : Phi6, φ.Floored 1e-12 → ∃ y, 1e-12 ≤ y ∧ sel φ = fin y) →
      ∃ row : List ℝ, (k1s.map fun k1 => fin k1 * quad23 s.grid s.grid fun k2 k3 => sel (opsPhi s.params ⟨k1, k2, k3⟩)) =
        row.map fin ∧
        List.Forall₂ (fun k1 x => k1 * (1e-12 * gridWidth s.grid * gridWidth s.grid) ≤ x) k1s row := by
    intro sel hsel
    refine ⟨k1s.map fun k1 => k1 * quad23 s.grid s.grid fun k2 k3 => (sel (opsPhi s.params ⟨k1, k2, k3⟩)).toReal, ?_, ?_⟩
    · rw [List.map_map]
      apply List.map_congr_left
      intro k1 h1
      have : quad23 s.grid s.grid (fun k2 k3 => sel (opsPhi s.params ⟨k1, k2, k3⟩)) = fin (quad23 s.grid s.grid
          fun k2 k3 => (sel (opsPhi s.params ⟨k1, k2, k3⟩)).toReal) := by
        apply quad23_fin
        intro k2 _ k3 _
        obtain ⟨y, -, hy⟩ := hsel _ (opsPhi_floored s.params hp (k := ⟨k1, k2, k3⟩) (hk k1 h1).ne')
        rw [hy, toReal_fin]
      rw [this, fin_mul_fin]; rfl
    · rw [List.forall₂_map_right_iff, List.forall₂_same]
      intro k1 h1
      refine mul_le_mul_of_nonneg_left ?_ (hk k1 h1).le
      refine quad23_ge (hg.imp le_of_lt) (hg.imp le_of_lt) ?_
      intro k2 _ k3 _
      obtain ⟨y, hy', hy⟩ := hsel _ (opsPhi_floored s.params hp (k := ⟨k1, k2, k3⟩) (hk k1 h1).ne')
      rw [hy, toReal_fin]; exact hy'
  obtain ⟨uu, h1, p1⟩ := key Phi6.p11 fun φ h => h.p11
  obtain ⟨vv, h2, p2⟩ := key Phi6.p22 fun φ h => h.p22
  obtain ⟨ww, h3, p3⟩ := key Phi6.p33 fun φ h => h.p33
  obtain ⟨vw, h5, -⟩ := key Phi6.p23 fun φ h => h.p23
  obtain ⟨uv, h6, -⟩ := key Phi6.p12 fun φ h => h.p12
  have h4 : ∃ row : List ℝ, (k1s.map fun k1 => fin k1 * quad23 s.grid s.grid
      fun k2 k3 => (opsPhi s.params ⟨k1, k2, k3⟩).p13) = row.map fin := by
    refine ⟨k1s.map fun k1 => k1 * quad23 s.grid s.grid fun k2 k3 => ((opsPhi s.params ⟨k1, k2, k3⟩).p13).toReal, ?_⟩
    rw [List.map_map]
    apply List.map_congr_left
    intro k1 h1
    have : quad23 s.grid s.grid (fun k2 k3 => (opsPhi s.params ⟨k1, k2, k3⟩).p13) = fin (quad23 s.grid s.grid
        fun k2 k3 => ((opsPhi s.params ⟨k1, k2, k3⟩).p13).toReal) := by
      apply quad23_fin
      intro k2 _ k3 _
      obtain ⟨y, hy⟩ := (opsPhi_floored s.params hp (k := ⟨k1, k2, k3⟩) (hk k1 h1).ne').p13
      rw [hy, toReal_fin]
    rw [this, fin_mul_fin]; rfl
  obtain ⟨uw, h4⟩ := h4
  refine ⟨uu, vv, ww, uw, vw, uv, ?_, ?_⟩
  · rw [forward_eq]
    simp [phiSelectors, h1, h2, h3, h4, h5, h6]
  · intro row hrow
    simp only [List.mem_cons, List.not_mem_nil, or_false] at hrow
    rcases hrow with rfl | rfl | rfl
    · exact p1
    · exact p2
    · exact p3

/-- **C18** The lower bound is positive on every grid the constructor can build. -/
theorem C18_bound_positive {p1 p2 : ℝ} (h : p1 < p2) {n : ℕ} (hn : 1 ≤ n) {k1 : ℝ} (hk : 0 < k1) :
    0 < k1 * (1e-12 * gridWidth (opsGrid p1 p2 n) * gridWidth (opsGrid p1 p2 n)) := by
  have := gridWidth_pos (opsGrid_sorted h n) (by rw [opsGrid_length]; omega)
  positivity

/-- Every lifetime model satisfies the hypothesis of C18 (for MANN: positivity of the hypergeometric function; for TAUNET:
the network does not send a non-zero wavevector to zero). -/
theorem C18_lifetimes (p : OPSParams)
    (h : match p.ty with
      | .mann => ∀ x < 0, 0 < p.hyp x
      | .taunet net => net.Nondegenerate
      | _ => True) : p.LifetimeFinite := lifetimeFinite_of p h

/-- **C19** The exact quadrature of the uv and vw densities (before the floor) vanishes by symmetry. -/
theorem C19_exact_zero (p : OPSParams) (hp : p.LifetimeFinite) {g2 g3 : List ℝ}
    (hg : g2.reverse.map (fun x => -x) = g2) {k1 : ℝ} (hk : k1 ≠ 0) :
    let raw := fun k2 k3 => phiRaw ⟨k1, k2, k3⟩ (eddyLifetime p.hyp p.ty p.L p.T ⟨k1, k2, k3⟩)
      (energyE0 p.sp p.L p.M ⟨k1, k2, k3⟩ (eddyLifetime p.hyp p.ty p.L p.T ⟨k1, k2, k3⟩) / fin (4 * Real.pi))
    quad23 g2 g3 (fun k2 k3 => (raw k2 k3).p12) = fin 0 ∧ quad23 g2 g3 (fun k2 k3 => (raw k2 k3).p23) = fin 0 := by
  intro raw
  have h4 : (4 * Real.pi) ≠ 0 := by positivity
  have main : ∀ k2 k3 : ℝ, ∃ x y : ℝ, (raw k2 k3).p12 = fin x ∧ (raw k2 k3).p23 = fin y ∧
      (raw (-k2) k3).p12 = fin (-x) ∧ (raw (-k2) k3).p23 = fin (-y) := by
    intro k2 k3
    obtain ⟨b, hb⟩ := hp ⟨k1, k2, k3⟩ hk
    have hb' : eddyLifetime p.hyp p.ty p.L p.T ⟨k1, -k2, k3⟩ = fin b := by
      rw [← hb]; exact eddyLifetime_flip2 p.hyp p.ty p.L p.T ⟨k1, k2, k3⟩
    obtain ⟨e, -, he⟩ := energyE0_pos p.sp p.L_pos (k := ⟨k1, k2, k3⟩) hk b
    have he' : energyE0 p.sp p.L p.M ⟨k1, -k2, k3⟩ (fin b) = fin (p.M * e) := by
      rw [← he p.M]
      unfold energyE0
      have : ((-k2) * (-k2) : ℝ) = k2 * k2 := by ring
      simp only [fin_mul_fin, this]
    have hflip : (⟨k1, -k2, k3⟩ : K3) = K3.flip2 ⟨k1, k2, k3⟩ := rfl
    refine ⟨p.M * e / (4 * Real.pi) / (kk0R ⟨k1, k2, k3⟩ b * kk0R ⟨k1, k2, k3⟩ b) *
        (-k1 * k2 - k1 * k30R ⟨k1, k2, k3⟩ b * z2R ⟨k1, k2, k3⟩ b - k2 * k30R ⟨k1, k2, k3⟩ b * z1R ⟨k1, k2, k3⟩ b +
          sR ⟨k1, k2, k3⟩ * z1R ⟨k1, k2, k3⟩ b * z2R ⟨k1, k2, k3⟩ b),
      p.M * e / (4 * Real.pi) / (kkR ⟨k1, k2, k3⟩ * kk0R ⟨k1, k2, k3⟩ b) *
        (-k2 * k30R ⟨k1, k2, k3⟩ b + sR ⟨k1, k2, k3⟩ * z2R ⟨k1, k2, k3⟩ b), ?_, ?_, ?_, ?_⟩
    · simp only [raw, hb, he, fin_div_fin _ h4]
      rw [phiRaw_fin (k := ⟨k1, k2, k3⟩) hk]
    · simp only [raw, hb, he, fin_div_fin _ h4]
      rw [phiRaw_fin (k := ⟨k1, k2, k3⟩) hk]
    · simp only [raw, hb', he', fin_div_fin _ h4]
      rw [phiRaw_fin (k := ⟨k1, -k2, k3⟩) hk]
      simp only [hflip, flip2_kk0R, flip2_z1R, flip2_z2R, flip2_k30R, flip2_sR]
      rw [fin_inj]
      ring
    · simp only [raw, hb', he', fin_div_fin _ h4]
      rw [phiRaw_fin (k := ⟨k1, -k2, k3⟩) hk]
      simp only [hflip, flip2_kk0R, flip2_kkR, flip2_z2R, flip2_k30R, flip2_sR]
      rw [fin_inj]
      ring
  have quad : ∀ (F : ℝ → ℝ → Fl), (∀ k2 k3, ∃ x, F k2 k3 = fin x ∧ F (-k2) k3 = fin (-x)) →
      quad23 g2 g3 F = fin 0 := by
    intro F hF
    rw [quad23_fin (f := fun k2 k3 => (F k2 k3).toReal)]
    · congr 1
      unfold quad23
      apply trapz_odd hg
      intro k2 _
      rw [← trapz_neg]
      apply trapz_congr
      intro k3 _
      obtain ⟨x, h1, h2⟩ := hF k2 k3
      simp only [h1, h2, toReal_fin]
    · intro k2 _ k3 _
      obtain ⟨x, h1, -⟩ := hF k2 k3
      rw [h1, toReal_fin]
  constructor
  · apply quad
    intro k2 k3
    obtain ⟨x, y, h1, h2, h3, h4⟩ := main k2 k3
    exact ⟨x, h1, h3⟩
  · apply quad
    intro k2 k3
    obtain ⟨x, y, h1, h2, h3, h4⟩ := main k2 k3
    exact ⟨y, h2, h4⟩

/-- **C19** The returned vw and uv rows are nevertheless at least `k1 * 1e-12 * width^2 > 0`. -/
theorem C19_returned_positive (s : OPS) (hp : s.params.LifetimeFinite) (hg : s.grid.Pairwise (· < ·))
    (k1s : List ℝ) (hk : ∀ k1 ∈ k1s, 0 < k1) :
    ∃ (a b c d : List Fl) (vw uv : List ℝ),
      (OPS.forward k1s s).1 = .ok [a, b, c, d, vw.map fin, uv.map fin] ∧
      ∀ row ∈ [vw, uv], List.Forall₂ (fun k1 x => k1 * (1e-12 * gridWidth s.grid * gridWidth s.grid) ≤ x) k1s row := by
  have key : ∀ (sel : Phi6 → Fl), (∀ φ : Phi6, φ.Floored 1e-12 → ∃ y, 1e-12 ≤ y ∧ sel φ = fin y) →
      ∃ row : List ℝ, (k1s.map fun k1 => fin k1 * quad23 s.grid s.grid fun k2 k3 => sel (opsPhi s.params ⟨k1, k2, k3⟩)) =
        row.map fin ∧
        List.Forall₂ (fun k1 x => k1 * (1e-12 * gridWidth s.grid * gridWidth s.grid) ≤ x) k1s row := by
    intro sel hsel
    refine ⟨k1s.map fun k1 => k1 * quad23 s.grid s.grid fun k2 k3 => (sel (opsPhi s.params ⟨k1, k2, k3⟩)).toReal, ?_, ?_⟩
    · rw [List.map_map]
      apply List.map_congr_left
      intro k1 h1
      have : quad23 s.grid s.grid (fun k2 k3 => sel (opsPhi s.params ⟨k1, k2, k3⟩)) = fin (quad23 s.grid s.grid
          fun k2 k3 => (sel (opsPhi s.params ⟨k1, k2, k3⟩)).toReal) := by
        apply quad23_fin
        intro k2 _ k3 _
        obtain ⟨y, -, hy⟩ := hsel _ (opsPhi_floored s.params hp (k := ⟨k1, k2, k3⟩) (hk k1 h1).ne')
        rw [hy, toReal_fin]
      rw [this, fin_mul_fin]; rfl
    · rw [List.forall₂_map_right_iff, List.forall₂_same]
      intro k1 h1
      refine mul_le_mul_of_nonneg_left ?_ (hk k1 h1).le
      refine quad23_ge (hg.imp le_of_lt) (hg.imp le_of_lt) ?_
      intro k2 _ k3 _
      obtain ⟨y, hy', hy⟩ := hsel _ (opsPhi_floored s.params hp (k := ⟨k1, k2, k3⟩) (hk k1 h1).ne')
      rw [hy, toReal_fin]; exact hy'
  obtain ⟨vw, h5, p5⟩ := key Phi6.p23 fun φ h => h.p23
  obtain ⟨uv, h6, p6⟩ := key Phi6.p12 fun φ h => h.p12
  have hf := forward_eq k1s s
  simp only [phiSelectors, List.map_cons, List.map_nil, h5, h6] at hf
  refine ⟨_, _, _, _, vw, uv, hf, ?_⟩
  intro row hrow
  simp only [List.mem_cons, List.not_mem_nil, or_false] at hrow
  rcases hrow with rfl | rfl
  · exact p5
  · exact p6

/-- **C21** After `n` further calls of `PowerSpectra` each of the six returned densities is the floor applied to the first one
divided by `(4 pi)^n`: the stored energy is divided in place at each call. -/
theorem C21_not_idempotent (s : OPS) {beta E0 : K3 → Fl} {k1s : List ℝ} (h1 : s.k1s = some k1s)
    (h2 : s.beta = some beta) (h3 : s.E0 = some E0) {k : K3} (hk : k.k1 ≠ 0) {b e : ℝ} (hb : beta k = fin b)
    (he : E0 k = fin e) (n : ℕ) :
    ∃ (x11 x22 x33 x13 x23 x12 : ℝ) (Phi : K3 → Phi6),
      phiRaw k (fin b) (fin (e / (4 * Real.pi))) =
        { p11 := fin x11, p22 := fin x22, p33 := fin x33, p13 := fin x13, p23 := fin x23, p12 := fin x12 } ∧
      (OPS.PowerSpectra (runCalls (List.replicate n .powerSpectra) s)).1 = .ok Phi ∧
      Phi k =
        { p11 := floorEps 1e-12 (fin (x11 / (4 * Real.pi) ^ n)), p22 := floorEps 1e-12 (fin (x22 / (4 * Real.pi) ^ n)),
          p33 := floorEps 1e-12 (fin (x33 / (4 * Real.pi) ^ n)), p13 := floorEpsSigned 1e-12 (fin (x13 / (4 * Real.pi) ^ n)),
          p23 := floorEps 1e-12 (fin (x23 / (4 * Real.pi) ^ n)), p12 := floorEps 1e-12 (fin (x12 / (4 * Real.pi) ^ n)) } := by
  have h4 : (4 * Real.pi) ≠ 0 := by positivity
  have hst : ∀ n, (runCalls (List.replicate n .powerSpectra) s).k1s = some k1s ∧
      (runCalls (List.replicate n .powerSpectra) s).beta = some beta ∧
      ∃ E, (runCalls (List.replicate n .powerSpectra) s).E0 = some E ∧ E k = fin (e / (4 * Real.pi) ^ n) := by
    intro n
    induction n with
    | zero => exact ⟨h1, h2, E0, h3, by simp [he]⟩
    | succ n ih =>
      obtain ⟨i1, i2, E, i3, i4⟩ := ih
      have e' : runCalls (List.replicate (n + 1) .powerSpectra) s =
          (OPS.PowerSpectra (runCalls (List.replicate n .powerSpectra) s)).2 := by
        unfold runCalls
        rw [List.replicate_succ', List.foldl_append]; rfl
      rw [e']
      unfold OPS.PowerSpectra
      simp only [i1, i2, i3]
      refine ⟨trivial, trivial, _, rfl, ?_⟩
      rw [i4, fin_div_fin _ h4, pow_succ, div_div]
  obtain ⟨i1, i2, E, i3, i4⟩ := hst n
  have hr : ∀ u : ℝ, e / (4 * Real.pi) ^ n / (4 * Real.pi) / u = e / (4 * Real.pi) / u / (4 * Real.pi) ^ n := by
    intro u; ring
  have hP : (OPS.PowerSpectra (runCalls (List.replicate n .powerSpectra) s)).1 =
      .ok fun k => phiFloor (1e-12) (phiRaw k (beta k) (E k / fin (4 * Real.pi))) := by
    unfold OPS.PowerSpectra
    simp only [i1, i2, i3]
  have e1 := phiRaw_fin (b := b) hk (e / (4 * Real.pi))
  have e2 := phiRaw_fin (b := b) hk (e / (4 * Real.pi) ^ n / (4 * Real.pi))
  refine ⟨_, _, _, _, _, _, _, by rw [e1], hP, ?_⟩
  simp only [hb, i4, fin_div_fin _ h4, e2, phiFloor]
  congr 3 <;> rw [hr, div_mul_eq_mul_div]

/-- **C25** After `log_dimensional_scales` (done by the `CalibrationProblem` constructor) `exp_scales` returns the physical
scales exactly. -/
theorem C25_calibration_scales (s : OPS) {L G S : ℝ} (hL : 0 < L) (hG : 0 < G) (hS : 0 < S) :
    ∃ s', s.logDimensionalScales L G S = .ok s' ∧ s'.expScalesValue = (L, G, S) := by
  refine ⟨_, if_pos ⟨hL, hG, hS⟩, ?_⟩
  simp [OPS.expScalesValue, Real.exp_log hL, Real.exp_log hG, Real.exp_log hS]

/-- **C25** Non-positive scales are refused: by the network constructor and by `log_dimensional_scales`. -/
theorem C25_rejects (s : OPS) (hyp : ℝ → ℝ) (kind : EddyKind) (sp : SpectrumChoice) {L G S : ℝ}
    (h : ¬ (0 < L ∧ 0 < G ∧ 0 < S)) (p1 p2 : ℝ) (n : ℕ) (coh : Option (ℝ × ℝ × ℕ)) :
    OPS.init hyp kind sp L G S p1 p2 n coh = .error .assertionError ∧
    s.logDimensionalScales L G S = .error .valueError := ⟨if_neg h, if_neg h⟩

/-- **C25** A bare model object reports `exp(log10 x)`, which is the requested value only for 1. -/
theorem C25_bare_scales (hyp : ℝ → ℝ) (kind : EddyKind) (sp : SpectrumChoice) {L G S : ℝ} (hL : 0 < L) (hG : 0 < G)
    (hS : 0 < S) (p1 p2 : ℝ) (n : ℕ) (coh : Option (ℝ × ℝ × ℕ)) :
    ∃ s, OPS.init hyp kind sp L G S p1 p2 n coh = .ok s ∧
      (s.expScalesValue.1 = L ↔ L = 1) ∧ (s.expScalesValue.2.1 = G ↔ G = 1) ∧ (s.expScalesValue.2.2 = S ↔ S = 1) := by
  have key : ∀ {x : ℝ}, 0 < x → (Real.exp (Real.logb 10 x) = x ↔ x = 1) := by
    intro x hx
    constructor
    · intro h
      have h1 : Real.logb 10 x = Real.log x := by rw [← Real.log_exp (Real.logb 10 x), h]
      have h10 : Real.log 10 ≠ 1 := by
        intro h
        have : Real.exp 1 = 10 := by rw [← h, Real.exp_log (by norm_num)]
        have := Real.exp_one_lt_d9
        linarith
      have h0 : 0 < Real.log 10 := Real.log_pos (by norm_num)
      rw [Real.logb, div_eq_iff h0.ne'] at h1
      have : Real.log x * (1 - Real.log 10) = 0 := by linarith
      rcases mul_eq_zero.1 this with h | h
      · rw [← Real.exp_log hx, h, Real.exp_zero]
      · exact absurd (by linarith) h10
    · rintro rfl; simp
  exact ⟨_, if_pos ⟨hL, hG, hS⟩, key hL, key hG, key hS⟩

/-- **C24** At `k1 = 0` every returned value is NaN, whatever the parameters and the eddy lifetime. -/
theorem C24_zero_wavenumber (s : OPS) (hg : 2 ≤ s.grid.length) (h0 : (0:ℝ) ∈ s.grid) :
    (OPS.forward [0] s).1 = .ok [[nan], [nan], [nan], [nan], [nan], [nan]] := by
  have hphi : ∀ p : OPSParams, opsPhi p ⟨0, 0, 0⟩ = ⟨nan, nan, nan, nan, nan, nan⟩ := by
    intro p
    unfold opsPhi
    simp only
    generalize energyE0 p.sp p.L p.M ⟨0, 0, 0⟩ (eddyLifetime p.hyp p.ty p.L p.T ⟨0, 0, 0⟩) / fin (4 * Real.pi) = E
    generalize eddyLifetime p.hyp p.ty p.L p.T ⟨0, 0, 0⟩ = b
    have hE : ∀ E : Fl, E / fin 0 * fin 0 = nan := by
      intro E
      cases E with
      | nan => simp
      | pinf => rw [pinf_div_fin_pos le_rfl, pinf_mul_fin]; simp
      | ninf => rw [ninf_div_fin_pos le_rfl, ninf_mul_fin]; simp
      | fin x =>
        rw [fin_div_zero]
        unfold infMul
        split_ifs
        · simp
        · rw [pinf_mul_fin]; simp
        · rw [ninf_mul_fin]; simp
    have h00 : fin 0 / fin 0 = nan := by rw [fin_div_zero]; simp
    unfold phiRaw phiFloor
    have hp0 : pinf * fin 0 = nan := by rw [pinf_mul_fin]; simp
    have hn0 : ninf * fin 0 = nan := by rw [ninf_mul_fin]; simp
    cases b <;>
      simp only [fin_mul_fin, fin_add_fin, fin_sub_fin, mul_zero, zero_mul, add_zero, sub_zero, neg_fin, neg_zero, h00,
        hp0, hn0, nan_mul, sub_nan, nan_sub, mul_nan, add_nan, nan_add, nan_div, div_nan,
        hE, floorEps_nan, floorEpsSigned_nan]
  rw [forward_eq]
  have hq : ∀ sel ∈ phiSelectors, (quad23 s.grid s.grid fun k2 k3 => sel (opsPhi s.params ⟨0, k2, k3⟩)) = nan := by
    intro sel hsel
    refine quad23_nan hg hg ⟨0, h0, 0, h0, ?_⟩
    rw [hphi]
    simp only [phiSelectors, List.mem_cons, List.not_mem_nil, or_false] at hsel
    rcases hsel with rfl | rfl | rfl | rfl | rfl | rfl <;> rfl
  simp only [phiSelectors, List.mem_cons, List.not_mem_nil, or_false, forall_eq_or_imp, forall_eq] at hq
  simp [phiSelectors, hq]

/-- The hypothesis of C24 holds for every constructed object with at least one grid point per side. -/
theorem C24_grid (p1 p2 : ℝ) (n : ℕ) : (0:ℝ) ∈ opsGrid p1 p2 n := by simp [opsGrid]

end
end Verif
