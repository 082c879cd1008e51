import Mathlib.Analysis.SpecialFunctions.Pow.Real
import Mathlib.MeasureTheory.Integral.IntervalIntegral.Basic
import Mathlib.LinearAlgebra.Matrix.Notation
import Mathlib.LinearAlgebra.Matrix.PosDef

/-!
# Textbook spectral tensors (independent of the code)

The isotropic von Karman tensor and the rapid-distortion (RDT) solution for a unit uniform shear
`dU1/dx3 = 1`, with the distortion coefficients given as *integrals* of the RDT equations, not in the
closed form used by the code.
-/

namespace Verif.Spec
open MeasureTheory

noncomputable section

/-- Squared length of a vector. -/
def sq3 (k : Fin 3 → ℝ) : ℝ := k 0 ^ 2 + k 1 ^ 2 + k 2 ^ 2

/-- Von Karman energy spectrum `E0 κ^(-5/3) (κL / sqrt(1+(κL)^2))^(17/3)`
(docstring of `VonKarmanCovariance`). -/
def vkE (L E0 κ : ℝ) : ℝ :=
  E0 * κ ^ (-5 / 3 : ℝ) * (κ * L / Real.sqrt (1 + (κ * L) ^ 2)) ^ (17 / 3 : ℝ)

/-- Isotropic incompressible tensor `E(κ)/(4πκ²) (δ_ij - k_i k_j/κ²)`. -/
def isoTensor (E : ℝ → ℝ) (k : Fin 3 → ℝ) : Matrix (Fin 3) (Fin 3) ℝ :=
  fun i j => E (Real.sqrt (sq3 k)) / (4 * Real.pi * sq3 k) * ((if i = j then 1 else 0) - k i * k j / sq3 k)

/-- Squared length of the distorted wavevector `(k1, k2, K - k1 t)` at time `t`. -/
def shearSq (k1 k2 K t : ℝ) : ℝ := k1 ^ 2 + k2 ^ 2 + (K - k1 * t) ^ 2

/-- RDT for `dU1/dx3 = 1`: `dZ3' = 2 k1 k3/k² dZ3`, whose solution is `k0²/k²`. -/
def rdt3 (k1 k2 K b : ℝ) : ℝ := shearSq k1 k2 K 0 / shearSq k1 k2 K b

/-- RDT: `dZ1' = (2 k1²/k² - 1) dZ3`. -/
def rdt1 (k1 k2 K b : ℝ) : ℝ :=
  ∫ t in (0:ℝ)..b, (2 * k1 ^ 2 / shearSq k1 k2 K t - 1) * rdt3 k1 k2 K t

/-- RDT: `dZ2' = (2 k1 k2/k²) dZ3`. -/
def rdt2 (k1 k2 K b : ℝ) : ℝ :=
  ∫ t in (0:ℝ)..b, (2 * k1 * k2 / shearSq k1 k2 K t) * rdt3 k1 k2 K t

/-- The distortion matrix `D_β(k)` mapping `dZ(k0)` to `dZ(k)`, for final wavevector `k` and initial
wavevector `k0 = (k1, k2, k3 + β k1)`. -/
def distortion (k : Fin 3 → ℝ) (b : ℝ) : Matrix (Fin 3) (Fin 3) ℝ :=
  let K := k 2 + b * k 0
  !![1, 0, rdt1 (k 0) (k 1) K b;
     0, 1, rdt2 (k 0) (k 1) K b;
     0, 0, rdt3 (k 0) (k 1) K b]

/-- Initial wavevector. -/
def initialWave (k : Fin 3 → ℝ) (b : ℝ) : Fin 3 → ℝ := ![k 0, k 1, k 2 + b * k 0]

/-- The sheared tensor `D Φ_VK(k0) Dᵀ`. -/
def shearedTensor (E : ℝ → ℝ) (k : Fin 3 → ℝ) (b : ℝ) : Matrix (Fin 3) (Fin 3) ℝ :=
  distortion k b * isoTensor E (initialWave k b) * (distortion k b).transpose

end
end Verif.Spec
