import Verif.Num.Fl

/-!
# Model of `drdmannturb/common.py`

Scalar functions; the code applies them elementwise to tensors.
Integer powers `x**2`, `x**4`, `s**3` are written as products (exact arithmetic).
-/

namespace Verif
open Fl

noncomputable section

/-- A real function applied to a float; special values give NaN (simplification, never relied upon). -/
def liftR (f : ℝ → ℝ) : Fl → Fl
  | fin x => fin (f x)
  | _ => nan

/-- `VKEnergySpectrum`, common.py L27-51: `kL**4 / (1.0 + kL**2) ** (17.0 / 6.0)`. -/
def VKEnergySpectrum (kL : Fl) : Fl :=
  (kL * kL * kL * kL) / Fl.pow (1 + kL * kL) (17 / 6)

/-- `VKLike_EnergySpectrum`, common.py L55-71:
`kL ** (-5.0 / 3.0) * (kL / torch.sqrt(1.0 + kL**2)) ** (17.0 / 3.0)`. -/
def VKLike_EnergySpectrum (kL : Fl) : Fl :=
  Fl.pow kL (-5 / 3) * Fl.pow (kL / Fl.sqrt (1 + kL * kL)) (17 / 3)

/-- `Learnable_EnergySpectrum`, common.py L75-81: `(kL ** p) / ((1.0 + kL**2) ** q)`.
The exponents are finite reals (they are tensors in the code). -/
def Learnable_EnergySpectrum (kL : Fl) (p q : ℝ) : Fl :=
  Fl.pow kL p / Fl.pow (1 + kL * kL) q

/-- `MannEddyLifetime`, common.py L84-113, with the hypergeometric function `2F1(1/3,17/6;4/3;·)` as a
parameter: `x ** (-2 / 3) / np.sqrt(hyp2f1(1 / 3, 17 / 6, 4 / 3, -(x ** (-2))))`. -/
def MannEddyLifetime (hyp : ℝ → ℝ) (x : Fl) : Fl :=
  Fl.pow x (-2 / 3) / Fl.sqrt (liftR hyp (-(Fl.pow x (-2))))

/-- `Mann_linear_exponential_approx`, common.py L116-152:
`torch.exp(coefficient * torch.log(kL) + intercept)`. -/
def Mann_linear_exponential_approx (kL : Fl) (coefficient intercept : ℝ) : Fl :=
  Fl.exp (fin coefficient * Fl.log kL + fin intercept)

end

end Verif
