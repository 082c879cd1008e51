import Mathlib.Analysis.SpecialFunctions.OrdinaryHypergeometric
import Mathlib.Analysis.Analytic.Constructions

/-!
# Specification of the hypergeometric function that the code takes from scipy

`scipy.special.hyp2f1(1/3, 17/6, 4/3, z)` is called with `z ≤ 0`.  The power series converges for `|z| < 1` only; for the
other arguments the function is the analytic continuation of the series along the negative real axis.  There is exactly
one such continuation (`IsHyp2F1.eqOn`), and it exists (`exists_isHyp2F1`), both in `Verif/Lemmas/Hyp.lean`.
-/

namespace Verif

open Filter Topology

/-- `hyp` is the hypergeometric function `2F1(a, b; c; ·)` on the negative real axis: analytic there, and equal to the
power series near `0`. -/
structure IsHyp2F1 (a b c : ℝ) (hyp : ℝ → ℝ) : Prop where
  analytic : AnalyticOnNhd ℝ hyp (Set.Iic 0)
  series : hyp =ᶠ[𝓝 0] ₂F₁ a b c

/-- The function of `MannEddyLifetime` (common.py L113). -/
abbrev IsMannHyp (hyp : ℝ → ℝ) : Prop := IsHyp2F1 (1 / 3) (17 / 6) (4 / 3) hyp

end Verif
