import Verif.Model.RoundedSampling
import Verif.Num.ScaleNear
import Mathlib.Analysis.SpecialFunctions.Complex.Arg

/-!
# The sheared kernels in floating point arithmetic

Every operation of `MannCovariance` and `NNCovariance` rounded with a small relative error (`Verif/Num/Round.lean`: no overflow, no
subnormal numbers).
-/

namespace Verif

noncomputable section

/-- A format with the two further library functions that the sheared kernels call. -/
structure ShearFmt extends Fmt where
  /-- `np.arctan2(y, x)` -/
  atan2F : ℝ → ℝ → ℝ
  atan2_err : ∀ y x, |atan2F y x - Complex.arg ⟨x, y⟩| ≤ v * |Complex.arg ⟨x, y⟩|

namespace ShearFmt
variable (A : ShearFmt)

/-- `np.sum(k**2, axis=0)` and `k1**2 + k2**2 + k30**2`, covariance_kernels.py L187, L202; nn_covariance.py L113, L126. -/
def sumsq (a b c : ℝ) : ℝ := A.add (A.add (A.sq a) (A.sq b)) (A.sq c)

/-- `k30 = k3 + beta * k1`, covariance_kernels.py L200; nn_covariance.py L124. -/
def k30 (k : K3) (b : ℝ) : ℝ := A.add k.k3 (A.mul b k.k1)

/-- `const`, covariance_kernels.py L206-207; nn_covariance.py L130-131. -/
def const (L E0 kk0 : ℝ) : ℝ :=
  let c := A.div (A.mul E0 (A.powF L (A.rnd (17 / 3)))) (A.rnd (4 * Real.pi))
  A.sqrt (A.div c (A.powF (A.add 1 (A.mul (A.sq L) kk0)) (A.rnd (17 / 6))))

/-- `C1`, covariance_kernels.py L222; nn_covariance.py L146. -/
def c1 (k : K3) (b : ℝ) : ℝ :=
  let k30 := A.k30 k b
  let kk0 := A.sumsq k.k1 k.k2 k30
  A.div (A.mul (A.mul b (A.sq k.k1)) (A.add (A.sub kk0 (A.mul 2 (A.sq k30))) (A.mul (A.mul b k.k1) k30)))
    (A.mul (A.sumsq k.k1 k.k2 k.k3) (A.add (A.sq k.k1) (A.sq k.k2)))

/-- `numerator`, covariance_kernels.py L223; nn_covariance.py L147. -/
def num (k : K3) (b : ℝ) : ℝ := A.mul (A.mul b k.k1) (A.sqrt (A.add (A.sq k.k1) (A.sq k.k2)))

/-- `denominator`, covariance_kernels.py L224; nn_covariance.py L148. -/
def den (k : K3) (b : ℝ) : ℝ := A.sub (A.sumsq k.k1 k.k2 (A.k30 k b)) (A.mul (A.mul (A.k30 k b) k.k1) b)

/-- `C2`, covariance_kernels.py L225; nn_covariance.py L149.  The exponent `3/2` is a number of the format. -/
def c2 (k : K3) (b : ℝ) : ℝ :=
  A.mul (A.div (A.mul k.k2 (A.sumsq k.k1 k.k2 (A.k30 k b))) (A.powF (A.add (A.sq k.k1) (A.sq k.k2)) (3 / 2)))
    (A.atan2F (A.num k b) (A.den k b))

/-- `zeta1` after `nan_to_num`, covariance_kernels.py L227, L232; nn_covariance.py L151, L156.  For `k1 = 0` the quotient
`k2 / k1` is infinite or NaN and its product with `C2 = 0` or `C2 = nan` is NaN, replaced by zero (C03 has this case in full). -/
def zeta1 (k : K3) (b : ℝ) : ℝ :=
  open Classical in if k.k1 = 0 then 0 else A.sub (A.c1 k b) (A.mul (A.div k.k2 k.k1) (A.c2 k b))

/-- `zeta2` after `nan_to_num`, covariance_kernels.py L228, L233; nn_covariance.py L152, L157. -/
def zeta2 (k : K3) (b : ℝ) : ℝ :=
  open Classical in if k.k1 = 0 then 0 else A.add (A.mul (A.div k.k2 k.k1) (A.c1 k b)) (A.c2 k b)

/-- `zeta3` after `nan_to_num`, covariance_kernels.py L229, L234; nn_covariance.py L153, L158.  (`0 / 0 = 0`.) -/
def zeta3 (k : K3) (b : ℝ) : ℝ := A.div (A.sumsq k.k1 k.k2 (A.k30 k b)) (A.sumsq k.k1 k.k2 k.k3)

/-- `tmpTens`, covariance_kernels.py L212-217; nn_covariance.py L136-141. -/
def tmp (L E0 : ℝ) (k : K3) (b : ℝ) : Fin 3 → Fin 3 → ℝ :=
  let k30 := A.k30 k b
  let c := A.const L E0 (A.sumsq k.k1 k.k2 k30)
  ![![0, A.mul (-c) k30, A.mul c k.k2], ![A.mul c k30, 0, A.mul (-c) k.k1], ![A.mul (-c) k.k2, A.mul c k.k1, 0]]

/-- The sheared kernel for a computed lifetime `b`, covariance_kernels.py L197-244; nn_covariance.py L121-168 (without the factor
`1j`). -/
def shear (L E0 : ℝ) (k : K3) (b : ℝ) : Fin 3 → Fin 3 → ℝ :=
  let t := A.tmp L E0 k b
  ![fun j => A.add (t 0 j) (A.mul (A.zeta1 k b) (t 2 j)), fun j => A.add (t 1 j) (A.mul (A.zeta2 k b) (t 2 j)),
    fun j => A.mul (A.zeta3 k b) (t 2 j)]

/-- Mann eddy lifetime with a computed hypergeometric function, covariance_kernels.py L190-195. -/
def mannBeta (hypF : ℝ → ℝ) (L Gamma : ℝ) (k : K3) : ℝ :=
  let kk := A.sumsq k.k1 k.k2 k.k3
  let x := A.mul kk (A.sq L)
  open Classical in if kk = 0 then 0 else A.div (A.mul Gamma (A.powF x (A.rnd (-1 / 3)))) (A.sqrt (hypF (A.div (-1) x)))

/-- `Spectrum_half` of a sheared kernel, sampling_methods.py L52-54, L136, at wavenumbers `q` with computed lifetimes `b`. -/
def shearHalf {n1 n2 n3 : ℕ} (L E0 : ℝ) (b : K3 → ℝ) (q : Box n1 n2 n3 → K3) (k : Box n1 n2 n3) : Matrix (Fin 3) (Fin 3) ℂ :=
  fun i l => Complex.I * (A.mul (A.shear L E0 (q k) (b (q k)) i l) (A.sqrt (voxels n1 n2 n3)) : ℝ)

/-- Binary floating point with `p` digits and correctly rounded functions. -/
def binary (p : ℕ) (hp : 0 < p) : ShearFmt where
  toFmt := Fmt.binary p hp
  atan2F y x := Fmt.nearest p (Complex.arg ⟨x, y⟩)
  atan2_err _ _ := Fmt.nearest_err p _

end ShearFmt
end
end Verif
