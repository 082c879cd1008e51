import Verif.Model.Common
import Verif.Model.NN
import Mathlib.LinearAlgebra.Matrix.Notation

/-!
# Model of `fluctuation_generation/covariance_kernels.py` and `nn_covariance.py`

Everything is pointwise in the wavevector `k = (k1,k2,k3)`; the code evaluates the same expressions on a
meshgrid.  The result is the real matrix `A` with `SqrtSpectralTens = A * 1j`.
-/

namespace Verif
open Fl

noncomputable section

/-- A wavevector. -/
structure K3 where
  k1 : ℝ
  k2 : ℝ
  k3 : ℝ

/-- The wavevector as a function of the index. -/
def K3.vec (k : K3) : Fin 3 → ℝ := ![k.k1, k.k2, k.k3]

/-- The opposite wavevector. -/
def K3.neg (k : K3) : K3 := ⟨-k.k1, -k.k2, -k.k3⟩

/-- `const` of all three kernels (covariance_kernels.py L109-110, L206-207; nn_covariance.py L130-131):
`np.sqrt(E0 * L**(17/3) / (4*pi) / (1 + L**2 * kk) ** (17/6))`. -/
def kernelConst (L E0 : ℝ) (kk : Fl) : Fl :=
  let const := fin E0 * Fl.pow (fin L) (17 / 3) / fin (4 * Real.pi)
  Fl.sqrt (const / Fl.pow (1 + fin (L ^ 2) * kk) (17 / 6))

/-- The antisymmetric matrix `const * [[0,-c,b],[c,0,-a],[-b,a,0]]`
(covariance_kernels.py L112-117, L212-217; nn_covariance.py L136-141). The zero entries come from `np.zeros`. -/
def crossMat (const a b c : Fl) : Fin 3 → Fin 3 → Fl
  | 0, 1 => -const * c
  | 0, 2 => const * b
  | 1, 0 => const * c
  | 1, 2 => -const * a
  | 2, 0 => -const * b
  | 2, 1 => const * a
  | _, _ => fin 0

/-- `VonKarmanCovariance.precompute_Spectrum`, covariance_kernels.py L88-119 (without the factor `1j`). -/
def vkKernel (L E0 : ℝ) (k : K3) : Fin 3 → Fin 3 → Fl :=
  let kk : Fl := fin (k.k1 ^ 2 + k.k2 ^ 2 + k.k3 ^ 2)
  crossMat (kernelConst L E0 kk) (fin k.k1) (fin k.k2) (fin k.k3)

/-- Mann eddy lifetime of the generator, covariance_kernels.py L192-195:
`Gamma * (kk * L**2) ** (-1/3) / sqrt(hyp2f1(1/3, 17/6, 4/3, -1/(kk * L**2)))`, set to `0` where `kk == 0`. -/
def mannBeta (hyp : ℝ → ℝ) (L Gamma : ℝ) (k : K3) : Fl :=
  let kk : Fl := fin (k.k1 ^ 2 + k.k2 ^ 2 + k.k3 ^ 2)
  let beta := fin Gamma * Fl.pow (kk * fin (L ^ 2)) (-1 / 3)
    / Fl.sqrt (liftR hyp (fin (-1) / (kk * fin (L ^ 2))))
  open Classical in if k.k1 ^ 2 + k.k2 ^ 2 + k.k3 ^ 2 = 0 then fin 0 else beta

/-- DRD eddy lifetime of the generator, nn_covariance.py L116-119: `Gamma * tauNet(k * h_ref)`, set to `0`
where `kk == 0`. -/
def nnBeta (net : TauNet) (Gamma h_ref : ℝ) (k : K3) : Fl :=
  let beta := fin Gamma * net.forward [k.k1 * h_ref, k.k2 * h_ref, k.k3 * h_ref]
  open Classical in if k.k1 ^ 2 + k.k2 ^ 2 + k.k3 ^ 2 = 0 then fin 0 else beta

/-- The rapid-distortion coefficients before `nan_to_num`,
covariance_kernels.py L200-202, L221-229 (identical in nn_covariance.py L124-126, L145-153). -/
def rdtZeta (k : K3) (beta : Fl) : Fl × Fl × Fl :=
  let k1 := fin k.k1
  let k2 := fin k.k2
  let k3 := fin k.k3
  let kk : Fl := fin (k.k1 ^ 2 + k.k2 ^ 2 + k.k3 ^ 2)
  let k30 := k3 + beta * k1
  let kk0 := k1 * k1 + k2 * k2 + k30 * k30
  let s := k1 * k1 + k2 * k2
  let C1 := beta * (k1 * k1) * (kk0 - fin 2 * (k30 * k30) + beta * k1 * k30) / (kk * s)
  let numerator := beta * k1 * Fl.sqrt s
  let denominator := kk0 - k30 * k1 * beta
  let C2 := k2 * kk0 / Fl.pow s (3 / 2) * Fl.atan2 numerator denominator
  let zeta1 := C1 - k2 / k1 * C2
  let zeta2 := k2 / k1 * C1 + C2
  let zeta3 := kk0 / kk
  (zeta1, zeta2, zeta3)

/-- The sheared kernel for a given eddy-lifetime value `beta`: covariance_kernels.py L197-244, the same
statements as nn_covariance.py L121-168 (without the factor `1j`). -/
def shearKernel (L E0 : ℝ) (k : K3) (beta : Fl) : Fin 3 → Fin 3 → Fl :=
  let k1 := fin k.k1
  let k2 := fin k.k2
  let k3 := fin k.k3
  let k30 := k3 + beta * k1
  let kk0 := k1 * k1 + k2 * k2 + k30 * k30
  let tmp := crossMat (kernelConst L E0 kk0) k1 k2 k30
  let zeta := rdtZeta k beta
  let zeta1 := fin (nanToNum zeta.1)
  let zeta2 := fin (nanToNum zeta.2.1)
  let zeta3 := fin (nanToNum zeta.2.2)
  fun i j =>
    match i with
    | 0 => tmp 0 j + zeta1 * tmp 2 j
    | 1 => tmp 1 j + zeta2 * tmp 2 j
    | 2 => zeta3 * tmp 2 j

/-- `MannCovariance.precompute_Spectrum`, covariance_kernels.py L169-246. -/
def mannKernel (hyp : ℝ → ℝ) (L E0 Gamma : ℝ) (k : K3) : Fin 3 → Fin 3 → Fl :=
  shearKernel L E0 k (mannBeta hyp L Gamma k)

/-- `NNCovariance.precompute_Spectrum`, nn_covariance.py L95-170. -/
def nnKernel (net : TauNet) (L E0 Gamma h_ref : ℝ) (k : K3) : Fin 3 → Fin 3 → Fl :=
  shearKernel L E0 k (nnBeta net Gamma h_ref k)

/-- `SqrtSpectralTens * 1j` (covariance_kernels.py L119, L246; nn_covariance.py L170) as a complex matrix.
Only meaningful when all entries are finite (property C12). -/
def times1j (A : Fin 3 → Fin 3 → Fl) : Matrix (Fin 3) (Fin 3) ℂ :=
  fun i j => Complex.I * ((A i j).toReal : ℂ)

/-- `ndim` check of the three constructors (covariance_kernels.py L80, L161; nn_covariance.py L80). -/
def covarianceNdimOk (ndim : Int) : Bool := ndim == 3

end
end Verif
