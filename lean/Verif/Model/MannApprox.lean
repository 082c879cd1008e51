import Verif.Model.OnePoint

/-!
# `init_mann_approximation` (one_point_spectra.py L433-463)
-/

namespace Verif
open Fl

noncomputable section

/-- Arithmetic mean of a list. -/
def meanL (l : List ℝ) : ℝ := l.sum / l.length

/-- `sklearn.linear_model.LinearRegression` with one feature: least-squares slope and intercept
(exact arithmetic closed form). -/
def linReg (xs ys : List ℝ) : ℝ × ℝ :=
  let mx := meanL xs
  let my := meanL ys
  let coef := (List.zipWith (fun x y => (x - mx) * (y - my)) xs ys).sum /
    (xs.map fun x => (x - mx) * (x - mx)).sum
  (coef, my - coef * mx)

/-- Sample points `np.logspace(-3, 3, 50)` (L443). -/
def mannApproxNodes : List ℝ := logspace (-3) 3 50

/-- `init_mann_approximation`, L443-461: regress `log(TimeScale_scalar * MannEddyLifetime(LengthScale_scalar * k))`
on `log k`.  `L0`, `T0` are `LengthScale_scalar`, `TimeScale_scalar` (the values given at construction, L152-153). -/
def initMannApproximation (hyp : ℝ → ℝ) (L0 T0 : ℝ) : ℝ × ℝ :=
  let tau_true := mannApproxNodes.map fun k =>
    (Fl.log (fin T0 * MannEddyLifetime hyp (fin L0 * fin k))).toReal
  let logs := mannApproxNodes.map fun k => (Fl.log (fin k)).toReal
  linReg logs tau_true

/-- `EddyLifetime` of a `MANN_APPROX` object: the regression is done on the first call (L494-497), the result is used
with the current `LengthScale`, `TimeScale`. -/
def mannApproxLifetime (hyp : ℝ → ℝ) (L0 T0 L T : ℝ) (k : K3) : Fl :=
  eddyLifetime hyp (.mannApprox (initMannApproximation hyp L0 T0).1 (initMannApproximation hyp L0 T0).2) L T k

end
end Verif
