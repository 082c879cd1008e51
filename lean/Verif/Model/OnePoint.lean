import Verif.Model.Common
import Verif.Model.NN
import Verif.Model.Kernels

/-!
# Model of `spectra_fitting/one_point_spectra.py`: formulas

Pointwise in the wavevector; the object state (stored grids, `E0`, cached coherence grid) is modelled in
`Verif/Model/OnePointState.lean`.
-/

namespace Verif
open Fl

noncomputable section

/-- `EddyLifetimeType`, enums.py L6-9. -/
inductive EddyType where
  | const
  | mann
  | mannApprox (coef intercept : ℝ)
  | twothird
  | taunet (net : TauNet)

/-- `EddyLifetime`, one_point_spectra.py L466-514, for given `LengthScale`, `TimeScale`.
`mannApprox` carries the regression result (`tau_approx_coeff_`, `tau_approx_intercept_`). -/
def eddyLifetime (hyp : ℝ → ℝ) (ty : EddyType) (L T : ℝ) (k : K3) : Fl :=
  let kL : Fl := fin L * fin (vecNorm [k.k1, k.k2, k.k3])
  let tau : Fl := match ty with
    | .const => fin 1
    | .mann => MannEddyLifetime hyp kL
    | .mannApprox c i => Mann_linear_exponential_approx kL c i
    | .twothird => Fl.pow kL (-2 / 3)
    | .taunet net => fin 0 + net.forward [k.k1 * L, k.k2 * L, k.k3 * L]
  fin T * tau

/-- Six tensor components in the order in which `PowerSpectra` returns them (L611):
`Phi11, Phi22, Phi33, Phi13, Phi23, Phi12`. -/
structure Phi6 where
  p11 : Fl
  p22 : Fl
  p33 : Fl
  p13 : Fl
  p23 : Fl
  p12 : Fl

/-- The returned 6-tuple as a list (stacking order of `forward`, L257). -/
def Phi6.toList (p : Phi6) : List Fl := [p.p11, p.p22, p.p33, p.p13, p.p23, p.p12]

/-- The tensor of `PowerSpectra` before the epsilon floor (one_point_spectra.py L566-595, the same
statements as `_PowerSpectra_coherence` L367-386).  `E0` is the value after the in-place division by `4*pi`. -/
def phiRaw (k : K3) (beta E0 : Fl) : Phi6 :=
  let k1 := fin k.k1
  let k2 := fin k.k2
  let k3 := fin k.k3
  let k30 := k3 + beta * k1
  let kk0 := k1 * k1 + k2 * k2 + k30 * k30
  let kk := k1 * k1 + k2 * k2 + k3 * k3
  let s := k1 * k1 + k2 * k2
  let C1 := beta * (k1 * k1) * (kk0 - fin 2 * (k30 * k30) + beta * k1 * k30) / (kk * s)
  let C2 := k2 * kk0 / Fl.sqrt (s * s * s) * Fl.atan2 (beta * k1 * Fl.sqrt s) (kk0 - k30 * k1 * beta)
  let zeta1 := C1 - k2 / k1 * C2
  let zeta2 := C1 * k2 / k1 + C2
  { p11 := E0 / (kk0 * kk0) * (kk0 - k1 * k1 - fin 2 * k1 * k30 * zeta1 + (k1 * k1 + k2 * k2) * (zeta1 * zeta1))
    p22 := E0 / (kk0 * kk0) * (kk0 - k2 * k2 - fin 2 * k2 * k30 * zeta2 + (k1 * k1 + k2 * k2) * (zeta2 * zeta2))
    p33 := E0 / (kk * kk) * (k1 * k1 + k2 * k2)
    p13 := E0 / (kk * kk0) * (-k1 * k30 + (k1 * k1 + k2 * k2) * zeta1)
    p12 := E0 / (kk0 * kk0) *
      (-k1 * k2 - k1 * k30 * zeta2 - k2 * k30 * zeta1 + (k1 * k1 + k2 * k2) * zeta1 * zeta2)
    p23 := E0 / (kk * kk0) * (-k2 * k30 + (k1 * k1 + k2 * k2) * zeta2) }

open Classical in
/-- `torch.where(Phi < epsilon, epsilon, Phi)`. -/
def floorEps (eps : ℝ) (x : Fl) : Fl := if Fl.lt x (fin eps) then fin eps else x

open Classical in
/-- `torch.where(torch.abs(Phi) < epsilon, epsilon * torch.sign(Phi), Phi)`. -/
def floorEpsSigned (eps : ℝ) (x : Fl) : Fl :=
  if Fl.lt (Fl.abs x) (fin eps) then fin eps * Fl.sign x else x

/-- The epsilon floor, one_point_spectra.py L597-611 (`eps = 1e-12`) and L390-398 (`eps = 1e-32`). -/
def phiFloor (eps : ℝ) (p : Phi6) : Phi6 :=
  { p11 := floorEps eps p.p11
    p22 := floorEps eps p.p22
    p33 := floorEps eps p.p33
    p13 := floorEpsSigned eps p.p13
    p12 := floorEps eps p.p12
    p23 := floorEps eps p.p23 }

/-- The energy spectrum selected in `forward` (L247-251). -/
inductive SpectrumChoice where
  | vkLike
  | learnable (p q : ℝ)

/-- Energy spectrum evaluation (L248-251). -/
def SpectrumChoice.eval : SpectrumChoice → Fl → Fl
  | .vkLike, kL => VKLike_EnergySpectrum kL
  | .learnable p q, kL => Learnable_EnergySpectrum kL p q

/-- `E0` of `forward` before the division by `4 pi` (L243-253):
`Magnitude * LengthScale**(5/3) * spectrum(LengthScale * |k0|)` with `k0 = (k1, k2, k3 + beta k1)`. -/
def energyE0 (sp : SpectrumChoice) (L M : ℝ) (k : K3) (beta : Fl) : Fl :=
  let k30 := fin k.k3 + beta * fin k.k1
  let nrm := Fl.sqrt (fin k.k1 * fin k.k1 + fin k.k2 * fin k.k2 + k30 * k30)
  let k0L := fin L * nrm
  fin M * Fl.pow (fin L) (5 / 3) * sp.eval k0L

/-- `torch.trapz(f, x)`: `sum (x[i+1]-x[i]) * (f[i]+f[i+1]) / 2`. -/
def trapz {M : Type*} [Add M] [Zero M] [SMul ℝ M] : List ℝ → List M → M
  | x0 :: x1 :: xs, y0 :: y1 :: ys => ((x1 - x0) / 2) • (y0 + y1) + trapz (x1 :: xs) (y1 :: ys)
  | _, _ => 0

/-- `quad23`, one_point_spectra.py L614-638 (and `_quad23_coherence` L400-407): integrate over `k3`, then `k2`. -/
def quad23 {M : Type*} [Add M] [Zero M] [SMul ℝ M] (g2 g3 : List ℝ) (f : ℝ → ℝ → M) : M :=
  trapz g2 (g2.map fun k2 => trapz g3 (g3.map fun k3 => f k2 k3))

/-- `torch.linspace(a, b, n)[i]`. For `n = 1` torch returns `[a]`. -/
def linspace (a b : ℝ) (n : ℕ) : List ℝ :=
  (List.range n).map fun i : ℕ => a + (b - a) * (i : ℝ) / ((n : ℝ) - 1)

/-- `torch.logspace(a, b, n)`. -/
def logspace (a b : ℝ) (n : ℕ) : List ℝ := (linspace a b n).map fun x => (10 : ℝ) ^ x

/-- Integration grid, one_point_spectra.py L112-116: `cat(-flip(plus), 0, plus)`. -/
def opsGrid (p1 p2 : ℝ) (n : ℕ) : List ℝ :=
  let plus := logspace p1 p2 n
  (plus.reverse.map fun x => -x) ++ [0] ++ plus

/-- Model parameters read by `forward`. -/
structure OPSParams where
  hyp : ℝ → ℝ
  ty : EddyType
  sp : SpectrumChoice
  logL : ℝ
  logT : ℝ
  logM : ℝ

/-- `exp_scales`, one_point_spectra.py L172-193. -/
def OPSParams.L (p : OPSParams) : ℝ := Real.exp p.logL
/-- `exp_scales`, one_point_spectra.py L191. -/
def OPSParams.T (p : OPSParams) : ℝ := Real.exp p.logT
/-- `exp_scales`, one_point_spectra.py L192. -/
def OPSParams.M (p : OPSParams) : ℝ := Real.exp p.logM

/-- The tensor at one wavevector as computed inside `forward` (L239-255). -/
def opsPhi (p : OPSParams) (k : K3) : Phi6 :=
  let beta := eddyLifetime p.hyp p.ty p.L p.T k
  let E0 := energyE0 p.sp p.L p.M k beta
  phiFloor (1e-12) (phiRaw k beta (E0 / fin (4 * Real.pi)))

end
end Verif
