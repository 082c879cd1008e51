import Verif.Model.Kernels
import Verif.Num.Round

/-!
# Kernels in floating point arithmetic with overflow and underflow

Every operation of the three kernels rounded by an arbitrary rounding that commutes with negation.  Unlike `Fmt`, results may
overflow to an infinity or underflow to zero.  As in the rest of the model zero is unsigned.
-/

namespace Verif
open Fl

noncomputable section

/-- A floating point arithmetic: rounding of exact results (infinite after overflow), and library functions, of which only the sign
symmetry of `arctan2` is used. -/
structure Ieee where
  /-- rounding of an exact finite result -/
  rnd : ℝ → Fl
  odd : ∀ x, rnd (-x) = -rnd x
  zero : rnd 0 = fin 0
  /-- `np.sqrt` -/
  sqrt : Fl → Fl
  /-- `**` -/
  pow : Fl → ℝ → Fl
  /-- `scipy.special.hyp2f1(1/3, 17/6, 4/3, .)` -/
  hyp : Fl → Fl
  /-- `np.arctan2` -/
  atan2 : Fl → Fl → Fl
  atan2_odd : ∀ y x, y ≠ fin 0 → atan2 (-y) x = -atan2 y x
  atan2_zero : ∀ x, ¬ Fl.lt x (fin 0) → atan2 (fin 0) x = fin 0 ∨ atan2 (fin 0) x = nan

namespace Ieee
variable (I : Ieee)

/-- Rounding of a result; infinities and NaN stay. -/
def R : Fl → Fl
  | fin x => I.rnd x
  | y => y

/-- `x + y`. -/
def add (x y : Fl) : Fl := I.R (x + y)
/-- `x - y`. -/
def sub (x y : Fl) : Fl := I.R (x - y)
/-- `x * y`. -/
def mul (x y : Fl) : Fl := I.R (x * y)
/-- `x / y`. -/
def div (x y : Fl) : Fl := I.R (x / y)
/-- `x ** 2`. -/
def sq (x : Fl) : Fl := I.mul x x

/-- `np.sum(k**2, axis=0)`, covariance_kernels.py L107, L187; nn_covariance.py L113; also `kk0`, L202. -/
def sumsq (a b c : Fl) : Fl := I.add (I.add (I.sq a) (I.sq b)) (I.sq c)

/-- `const`, covariance_kernels.py L109-110, L206-207; nn_covariance.py L130-131. -/
def const (L E0 kk : Fl) : Fl :=
  let c := I.div (I.mul E0 (I.pow L (17 / 3))) (I.rnd (4 * Real.pi))
  I.sqrt (I.div c (I.pow (I.add (fin 1) (I.mul (I.sq L) kk)) (17 / 6)))

/-- The antisymmetric matrix, covariance_kernels.py L112-117, L212-217; nn_covariance.py L136-141. -/
def cross (c x y z : Fl) : Fin 3 → Fin 3 → Fl
  | 0, 1 => I.mul (-c) z
  | 0, 2 => I.mul c y
  | 1, 0 => I.mul c z
  | 1, 2 => I.mul (-c) x
  | 2, 0 => I.mul (-c) y
  | 2, 1 => I.mul c x
  | _, _ => fin 0

/-- `VonKarmanCovariance.precompute_Spectrum`, covariance_kernels.py L88-119 (without the factor `1j`). -/
def vk (L E0 : Fl) (k : K3) : Fin 3 → Fin 3 → Fl :=
  I.cross (I.const L E0 (I.sumsq (fin k.k1) (fin k.k2) (fin k.k3))) (fin k.k1) (fin k.k2) (fin k.k3)

/-- `beta[np.where(kk == 0)] = 0`, covariance_kernels.py L195; nn_covariance.py L119. -/
def whereZero (k : K3) (beta : Fl) : Fl :=
  open Classical in if I.sumsq (fin k.k1) (fin k.k2) (fin k.k3) = fin 0 then fin 0 else beta

/-- Mann eddy lifetime, covariance_kernels.py L190-195. -/
def mannBeta (L Gamma : Fl) (k : K3) : Fl :=
  let x := I.mul (I.sumsq (fin k.k1) (fin k.k2) (fin k.k3)) (I.sq L)
  I.whereZero k (I.div (I.mul Gamma (I.pow x (-1 / 3))) (I.sqrt (I.hyp (I.div (fin (-1)) x))))

/-- Lifetime of the network, nn_covariance.py L116-119: `Gamma * tauNet(k * h_ref)`.  `TauNet.forward` starts with `k.abs()`
(nn_modules.py L200); `net` is whatever the network computes from these three magnitudes. -/
def nnBeta (net : Fl → Fl → Fl → Fl) (Gamma h : Fl) (k : K3) : Fl :=
  I.whereZero k (I.mul Gamma
    (net (Fl.abs (I.mul (fin k.k1) h)) (Fl.abs (I.mul (fin k.k2) h)) (Fl.abs (I.mul (fin k.k3) h))))

/-- `k30 = k3 + beta * k1`, covariance_kernels.py L200; nn_covariance.py L124. -/
def k30 (k : K3) (beta : Fl) : Fl := I.add (fin k.k3) (I.mul beta (fin k.k1))

/-- `numerator`, covariance_kernels.py L223; nn_covariance.py L147. -/
def num (k : K3) (beta : Fl) : Fl :=
  I.mul (I.mul beta (fin k.k1)) (I.sqrt (I.add (I.sq (fin k.k1)) (I.sq (fin k.k2))))

/-- `denominator`, covariance_kernels.py L224; nn_covariance.py L148. -/
def den (k : K3) (beta : Fl) : Fl :=
  I.sub (I.sumsq (fin k.k1) (fin k.k2) (I.k30 k beta)) (I.mul (I.mul (I.k30 k beta) (fin k.k1)) beta)

/-- `C1`, covariance_kernels.py L222; nn_covariance.py L146. -/
def c1 (k : K3) (beta : Fl) : Fl :=
  let k1 := fin k.k1
  let k30 := I.k30 k beta
  let kk0 := I.sumsq k1 (fin k.k2) k30
  I.div (I.mul (I.mul beta (I.sq k1))
      (I.add (I.sub kk0 (I.mul (fin 2) (I.sq k30))) (I.mul (I.mul beta k1) k30)))
    (I.mul (I.sumsq k1 (fin k.k2) (fin k.k3)) (I.add (I.sq k1) (I.sq (fin k.k2))))

/-- `C2`, covariance_kernels.py L225; nn_covariance.py L149. -/
def c2 (k : K3) (beta : Fl) : Fl :=
  I.mul (I.div (I.mul (fin k.k2) (I.sumsq (fin k.k1) (fin k.k2) (I.k30 k beta)))
    (I.pow (I.add (I.sq (fin k.k1)) (I.sq (fin k.k2))) (3 / 2))) (I.atan2 (I.num k beta) (I.den k beta))

/-- `zeta1`, `zeta2`, `zeta3` before `nan_to_num`, covariance_kernels.py L227-229; nn_covariance.py L151-153. -/
def zeta1 (k : K3) (beta : Fl) : Fl := I.sub (I.c1 k beta) (I.mul (I.div (fin k.k2) (fin k.k1)) (I.c2 k beta))
@[inherit_doc zeta1]
def zeta2 (k : K3) (beta : Fl) : Fl := I.add (I.mul (I.div (fin k.k2) (fin k.k1)) (I.c1 k beta)) (I.c2 k beta)
@[inherit_doc zeta1]
def zeta3 (k : K3) (beta : Fl) : Fl :=
  I.div (I.sumsq (fin k.k1) (fin k.k2) (I.k30 k beta)) (I.sumsq (fin k.k1) (fin k.k2) (fin k.k3))

/-- The sheared kernel, covariance_kernels.py L197-244; nn_covariance.py L121-168 (without the factor `1j`). -/
def shear (L E0 : Fl) (k : K3) (beta : Fl) : Fin 3 → Fin 3 → Fl :=
  let tmp := I.cross (I.const L E0 (I.sumsq (fin k.k1) (fin k.k2) (I.k30 k beta))) (fin k.k1) (fin k.k2) (I.k30 k beta)
  fun i j =>
    match i with
    | 0 => I.add (tmp 0 j) (I.mul (fin (nanToNum (I.zeta1 k beta))) (tmp 2 j))
    | 1 => I.add (tmp 1 j) (I.mul (fin (nanToNum (I.zeta2 k beta))) (tmp 2 j))
    | 2 => I.mul (fin (nanToNum (I.zeta3 k beta))) (tmp 2 j)

/-- `MannCovariance.precompute_Spectrum`, covariance_kernels.py L169-246. -/
def mann (L E0 Gamma : Fl) (k : K3) : Fin 3 → Fin 3 → Fl := I.shear L E0 k (I.mannBeta L Gamma k)

/-- `NNCovariance.precompute_Spectrum`, nn_covariance.py L95-170. -/
def nn (net : Fl → Fl → Fl → Fl) (L E0 Gamma h : Fl) (k : K3) : Fin 3 → Fin 3 → Fl := I.shear L E0 k (I.nnBeta net Gamma h k)

end Ieee
end
end Verif
