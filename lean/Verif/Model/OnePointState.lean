import Verif.Model.OnePoint
import Verif.Model.MannApprox
import Verif.Num.Py
import Mathlib.Analysis.SpecialFunctions.Log.Base
import Mathlib.Algebra.Group.Prod
import Mathlib.Algebra.Notation.Prod

/-!
# `OnePointSpectra` as an object with mutable attributes

The attributes that survive between calls: the learnable parameters, the cached scales (`exp_scales`), the regression
cache of `MANN_APPROX`, the wavevector mesh / `beta` / `E0` of the last `forward`, and the cached coherence grid.
Tensors over the mesh are represented by functions of the mesh point (all mesh tensors are computed pointwise).
-/

namespace Verif
open Fl

noncomputable section
open Classical

/-- `EddyLifetimeType` (enums.py L6-9) with the trained network for TAUNET. -/
inductive EddyKind where
  | const
  | mann
  | mannApprox
  | twothird
  | taunet (net : TauNet)

/-- Complex number with idealised float parts. -/
abbrev CFl := Fl × Fl

instance : SMul ℝ CFl := ⟨fun r z => (r • z.1, r • z.2)⟩

/-- Real tensor times complex tensor: torch promotes the real factor to `(x, 0)`. -/
def cflMul (x : Fl) (z : CFl) : CFl := (x * z.1 - fin 0 * z.2, x * z.2 + fin 0 * z.1)

/-- `torch.abs` of a complex tensor. (Simplification: `hypot` returns inf for (inf, nan); here NaN.) -/
def cflAbs (z : CFl) : Fl := Fl.sqrt (z.1 * z.1 + z.2 * z.2)

/-- `torch.exp(1j * t)`. -/
def cflExpI (t : ℝ) : CFl := (fin (Real.cos t), fin (Real.sin t))

/-- Components of the auto-coherence. -/
inductive Comp3 where
  | u | v | w

/-- Auto-spectrum density belonging to a component (one_point_spectra.py L336-338, L353-355). -/
def Comp3.sel : Comp3 → Phi6 → Fl
  | .u, p => p.p11
  | .v, p => p.p22
  | .w, p => p.p33

/-- Tensor at a coherence grid point (L305-331): like `opsPhi` but with floor `1e-32` (L390). -/
def cohPhi (p : OPSParams) (k : K3) : Phi6 :=
  let beta := eddyLifetime p.hyp p.ty p.L p.T k
  let E0 := energyE0 p.sp p.L p.M k beta
  phiFloor (1e-32) (phiRaw k beta (E0 / fin (4 * Real.pi)))

/-- One entry of the coherence array (L336-361): `abs(S(r))**2 / abs(S(0))**2`. -/
def cohEntry (p : OPSParams) (g2 g3 : List ℝ) (c : Comp3) (k1 r : ℝ) : Fl :=
  let S0 := quad23 g2 g3 fun k2 k3 => c.sel (cohPhi p ⟨k1, k2, k3⟩)
  let Sr : CFl := quad23 g2 g3 fun k2 k3 => cflMul (c.sel (cohPhi p ⟨k1, k2, k3⟩)) (cflExpI (k2 * r))
  (cflAbs Sr * cflAbs Sr) / (Fl.abs S0 * Fl.abs S0)

/-- The object. -/
structure OPS where
  hyp : ℝ → ℝ
  kind : EddyKind
  sp : SpectrumChoice
  logL : ℝ
  logT : ℝ
  logM : ℝ
  /-- `LengthScale_scalar`, `TimeScale_scalar` (L152-153). -/
  L0 : ℝ
  T0 : ℝ
  /-- `ops_grid_k2 = ops_grid_k3` (L112-125). -/
  grid : List ℝ
  /-- `LengthScale, TimeScale, Magnitude` attributes; `none` before the first `exp_scales`. -/
  scales : Option (ℝ × ℝ × ℝ)
  /-- `tau_approx_coeff_`, `tau_approx_intercept_`. -/
  approx : Option (ℝ × ℝ)
  /-- first axis of `self.k`. -/
  k1s : Option (List ℝ)
  beta : Option (K3 → Fl)
  E0 : Option (K3 → Fl)
  /-- `coh_grid_k2 = coh_grid_k3`. -/
  cohGrid : Option (List ℝ)

/-- A method call: result or exception, and the object afterwards (which keeps every change made before an exception). -/
abbrev OPSM (α : Type) := OPS → Except PyErr α × OPS

/-- `exp_scales`, L172-193. -/
def OPS.expScales (s : OPS) : OPS :=
  { s with scales := some (Real.exp s.logL, Real.exp s.logT, Real.exp s.logM) }

/-- The lifetime model after a possible `init_mann_approximation` (L494-497). -/
def OPS.initApprox (s : OPS) : OPS :=
  { s with approx := match s.kind, s.approx with
      | .mannApprox, none => some (initMannApproximation s.hyp s.L0 s.T0)
      | _, a => a }

/-- The formula selected by `type_EddyLifetime`. -/
def OPS.ty (s : OPS) : EddyType :=
  match s.kind with
  | .const => .const
  | .mann => .mann
  | .mannApprox => .mannApprox (s.approx.getD (0, 0)).1 (s.approx.getD (0, 0)).2
  | .twothird => .twothird
  | .taunet net => .taunet net

/-- `EddyLifetime(k)` with an argument (`hasArg = true`) or on the stored mesh, L466-514.  The result is returned as a
function of the mesh point. -/
def OPS.EddyLifetime (hasArg : Bool) : OPSM (K3 → Fl) := fun s =>
  if hasArg then
    let s := s.expScales.initApprox
    (.ok fun k => eddyLifetime s.hyp s.ty (Real.exp s.logL) (Real.exp s.logT) k, s)
  else
    match s.k1s, s.scales with
    | some _, some (L, T, _) =>
      let s := s.initApprox
      (.ok fun k => eddyLifetime s.hyp s.ty L T k, s)
    | _, _ => (.error .attributeError, s)

/-- `PowerSpectra`, L534-611: note `E0 /= 4 * torch.pi` modifies `self.E0` in place. -/
def OPS.PowerSpectra : OPSM (K3 → Phi6) := fun s =>
  match s.k1s, s.beta, s.E0 with
  | some _, some beta, some E0 =>
    let E0' := fun k => E0 k / fin (4 * Real.pi)
    (.ok fun k => phiFloor (1e-12) (phiRaw k (beta k) (E0' k)), { s with E0 := some E0' })
  | _, _, _ => (.error .attributeError, s)

/-- Stacking order of `forward` (L257). -/
def phiSelectors : List (Phi6 → Fl) := [Phi6.p11, Phi6.p22, Phi6.p33, Phi6.p13, Phi6.p23, Phi6.p12]

/-- `forward`, L195-259: six rows, one value per input wavenumber. -/
def OPS.forward (k1s : List ℝ) : OPSM (List (List Fl)) := fun s =>
  let s := { s.expScales with k1s := some k1s }
  match OPS.EddyLifetime false s with
  | (.error e, s) => (.error e, s)
  | (.ok beta, s) =>
    let s := { s with
      beta := some beta
      E0 := some fun k => energyE0 s.sp (Real.exp s.logL) (Real.exp s.logM) k (beta k) }
    match OPS.PowerSpectra s with
    | (.error e, s) => (.error e, s)
    | (.ok Phi, s) =>
      (.ok (phiSelectors.map fun sel =>
        k1s.map fun k1 => fin k1 * quad23 s.grid s.grid fun k2 k3 => sel (Phi ⟨k1, k2, k3⟩)), s)

/-- Fallback coherence grid, L286-295: `logspace(-3, 3, 100)` scaled by `1 / LengthScale`. -/
def cohFallbackGrid (L : ℝ) : List ℝ := (opsGrid (-3) 3 100).map fun x => x * (1 / L)

/-- `SpectralCoherence`, L261-363: components u, v, w; for each separation, one value per wavenumber. -/
def OPS.SpectralCoherence (k1s seps : List ℝ) : OPSM (List (List (List Fl))) := fun s =>
  let s := s.expScales
  let s := match s.cohGrid with
    | some _ => s
    | none => { s with cohGrid := some (cohFallbackGrid (Real.exp s.logL)) }
  let g := s.cohGrid.getD []
  match OPS.EddyLifetime true s with
  | (.error e, s) => (.error e, s)
  | (.ok _, s) =>
    let p : OPSParams := { hyp := s.hyp, ty := s.ty, sp := s.sp, logL := s.logL, logT := s.logT, logM := s.logM }
    (.ok ([Comp3.u, Comp3.v, Comp3.w].map fun c => seps.map fun r => k1s.map fun k1 => cohEntry p g g c k1 r), s)

/-- The calls a user can make between two evaluations. -/
inductive OPSCall where
  | expScales
  | forward (k1s : List ℝ)
  | eddyLifetime (hasArg : Bool)
  | powerSpectra
  | coherence (k1s seps : List ℝ)
  /-- an optimiser step or `parameters = ...`: new log scales -/
  | setScales (logL logT logM : ℝ)

/-- Effect of a call on the object. -/
def OPSCall.run : OPSCall → OPS → OPS
  | .expScales, s => s.expScales
  | .forward k, s => (OPS.forward k s).2
  | .eddyLifetime b, s => (OPS.EddyLifetime b s).2
  | .powerSpectra, s => (OPS.PowerSpectra s).2
  | .coherence k r, s => (OPS.SpectralCoherence k r s).2
  | .setScales a b c, s => { s with logL := a, logT := b, logM := c }

/-- `OnePointSpectra.__init__` (L84-154) for given physical scales: the log scales are base **10** (L144-146).  The
coherence grid is present only with `use_coherence` (L129-138). -/
def OPS.init (hyp : ℝ → ℝ) (kind : EddyKind) (sp : SpectrumChoice) (L Gamma sigma : ℝ) (p1 p2 : ℝ) (n : ℕ)
    (coh : Option (ℝ × ℝ × ℕ)) : Except PyErr OPS :=
  if 0 < L ∧ 0 < Gamma ∧ 0 < sigma then
    .ok { hyp, kind, sp
          logL := Real.logb 10 L, logT := Real.logb 10 Gamma, logM := Real.logb 10 sigma
          L0 := L, T0 := Gamma, grid := opsGrid p1 p2 n
          scales := none, approx := none, k1s := none, beta := none, E0 := none
          cohGrid := coh.map fun c => (opsGrid c.1 c.2.1 c.2.2).map fun x => x / L }
  else .error .assertionError

/-- `log_dimensional_scales`, calibration.py L198-207 (natural logarithm), acting on the fitted object. -/
def OPS.logDimensionalScales (L Gamma sigma : ℝ) (s : OPS) : Except PyErr OPS :=
  if 0 < L ∧ 0 < Gamma ∧ 0 < sigma then
    .ok { s with logL := Real.log L, logT := Real.log Gamma, logM := Real.log sigma }
  else .error .valueError

/-- Values returned by `exp_scales()`. -/
def OPS.expScalesValue (s : OPS) : ℝ × ℝ × ℝ := (Real.exp s.logL, Real.exp s.logT, Real.exp s.logM)

end
end Verif
