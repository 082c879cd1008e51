import Verif.Model.LowFreq
import Verif.Num.Round

/-!
# The low-frequency generator in floating point arithmetic

`low_frequency/fluctuation_field_generator.py` with every operation rounded with a small relative error (`Verif/Num/Round.lean`: no
overflow, no subnormal numbers).  Expressions are evaluated as written, although `fastmath` allows numba to reassociate them.  The
quadrature and the Fourier transforms are described by their accuracy alone.
-/

namespace Verif

noncomputable section
open Classical

/-- A format with the trigonometric functions that the low-frequency generator needs. -/
structure LowFmt extends Fmt where
  /-- `np.cos` -/
  cosF : ℝ → ℝ
  /-- `np.sin` -/
  sinF : ℝ → ℝ
  cos_err : ∀ t, |cosF t - Real.cos t| ≤ v * |Real.cos t|
  sin_err : ∀ t, |sinF t - Real.sin t| ≤ v * |Real.sin t|

namespace LowFmt
variable (A : LowFmt)

/-- `__init__`, L87-141, with `_compute_c` (L224-285) and `_calculate_buffer_sizes` (L148-222), from the number `I` that
`integrate.quad` returns; the numbers of points are integers and exact. -/
def lowInit (I : ℝ) (cfg : LFConfig) : Except PyErr LowFreq :=
  if cfg.L2d = 0 then throw PyErr.zeroDivisionError
  else if I < A.rnd 1e-16 then throw PyErr.valueError
  else
    let c := A.div cfg.sigma2 (A.mul 2 I)
    let userL1 := A.mul cfg.L1factor cfg.L2d
    let userL2 := A.mul cfg.L2factor cfg.L2d
    let userDx := A.div userL1 ((2 ^ cfg.exp1 : ℕ) : ℝ)
    let userDy := A.div userL2 ((2 ^ cfg.exp2 : ℕ) : ℝ)
    let compD := min userDx userDy
    let L1target := max userL1 (A.mul 5 cfg.L2d)
    let L2target := max userL2 (A.mul 5 cfg.L2d)
    if compD = 0 then throw PyErr.zeroDivisionError
    else
      let compN1 := evenCount ⌈A.div L1target compD⌉
      let compN2 := evenCount ⌈A.div L2target compD⌉
      let compL1 := A.mul compN1 compD
      let compL2 := A.mul compN2 compD
      let tolerance := A.rnd 1e-9
      if ¬ (A.sub L1target tolerance ≤ compL1 ∧ A.sub L2target tolerance ≤ compL2) then throw PyErr.runtimeError
      else if compN1 = 0 ∨ compN2 = 0 then throw PyErr.zeroDivisionError
      else
        let compDx := A.div compL1 compN1
        let compDy := A.div compL2 compN2
        if ¬ |A.sub compDx compDy| ≤ A.add (A.rnd 1e-8) (A.mul (A.rnd 1e-5) |compDy|) then throw PyErr.valueError
        else pure ⟨cfg, c, userL1, userL2, 2 ^ cfg.exp1, 2 ^ cfg.exp2, userDx, userDy, compL1, compL2, compN1.toNat, compN2.toNat,
          compDx, compDy, none, none⟩

/-- Entry of `k1_fft`, `k2_fft`, L130-131; `np.fft.fftfreq` multiplies the integers by `1.0 / (n * d)`. -/
def lowFreq (n : ℕ) (d : ℝ) (j : ZMod n) : ℝ := A.mul (A.mul 2 (A.rnd Real.pi)) (A.mul (fftIdx n j) (A.div 1 (A.mul n d)))

/-- `kappa_sq`, L356. -/
def lowKappaSq (psi k1 k2 : ℝ) : ℝ :=
  A.mul 2 (A.add (A.sq (A.mul k1 (A.cosF psi))) (A.sq (A.mul k2 (A.sinF psi))))

/-- `denominator`, L377-379. -/
def lowDen (L2d zi kappaSq : ℝ) : ℝ :=
  A.mul (A.powF (A.add (A.div 1 (A.sq L2d)) kappaSq) (A.rnd (7 / 3))) (A.add 1 (A.mul kappaSq (A.sq zi)))

/-- One entry of `phi_`, L355-390. -/
def lowPhi (c L2d psi zi dx dy k1 k2 : ℝ) : ℝ :=
  let kSq := A.add (A.sq k1) (A.sq k2)
  let kappaSq := A.lowKappaSq psi k1 k2
  let gridScale := A.div (A.mul 2 (A.rnd Real.pi)) (A.sqrt (max (A.mul dx dy) (A.rnd 1e-16)))
  if kSq < A.rnd 1e-20 then 0
  else
    let k := A.sqrt kSq
    let kappa := A.sqrt (max kappaSq (A.rnd 1e-20))
    let denominator := A.lowDen L2d zi kappaSq
    let energy := if denominator < A.rnd 1e-30 then 0 else A.div (A.mul c (A.mul kappa (A.sq kappa))) denominator
    let phiTerm := A.div energy (A.mul (A.rnd Real.pi) (A.mul k (A.sq k)))
    A.mul (A.sqrt (max phiTerm 0)) gridScale

section
variable {n1 n2 : ℕ} [NeZero n1] [NeZero n2]

/-- `Q1`, `Q2`, L393-394, divided by the imaginary unit. -/
def lowQ (lf : LowFreq) (i : Fin 2) (k : Box n1 n2 1) : ℝ :=
  let k1 := A.lowFreq n1 lf.compDx k.1
  let k2 := A.lowFreq n2 lf.compDy k.2.1
  let phi := A.lowPhi lf.c lf.cfg.L2d lf.cfg.psi lf.cfg.zi lf.compDx lf.compDy k1 k2
  match i with
  | 0 => A.mul phi k2
  | 1 => A.mul phi ((-1) * k1)

/-- `y` may be the pair `u1_full`, `u2_full` of `generate`, L486-508, for the given noise: the transforms have relative accuracy `η`
in the root mean square, the complex products `Q1 * noise_hat`, `Q2 * noise_hat` (L401) relative accuracy `ε`. -/
def LowRounded (lf : LowFreq) (noise : Box n1 n2 1 → ℝ) (η ε : ℝ) (y : Fin 2 → Box n1 n2 1 → ℝ) : Prop :=
  ∃ (h : Box n1 n2 1 → ℂ) (g : Fin 2 → Box n1 n2 1 → ℂ),
    (∑ k, ‖h k - fftn (fun x => (noise x : ℂ)) k‖ ^ 2 ≤ η ^ 2 * ∑ k, ‖fftn (fun x => (noise x : ℂ)) k‖ ^ 2) ∧
    (∀ i k, ‖g i k - Complex.I * (A.lowQ lf i k : ℝ) * h k‖ ≤ ε * ‖Complex.I * (A.lowQ lf i k : ℝ) * h k‖) ∧
    ∀ i, ∑ x, (y i x - (ifftn (g i) x).re) ^ 2 ≤ η ^ 2 * ((∑ k, ‖g i k‖ ^ 2) / voxels n1 n2 1)

end

/-- `u` may be the pair that `generate`, L455-522, returns on the object `lf` when numpy's stream is `γ` from position `pos` on. -/
def LowGenerate (lf : LowFreq) (γ : ℕ → ℝ) (pos : ℕ) (η ε : ℝ) (u : Mat × Mat) : Prop :=
  ∃ (n1 n2 : ℕ) (_ : NeZero n1) (_ : NeZero n2) (y : Fin 2 → Box n1 n2 1 → ℝ), n1 = lf.compN1 ∧ n2 = lf.compN2 ∧
    A.LowRounded lf (lfNoise γ pos) η ε y ∧
    extractPortion lf.userN1 lf.userN2 (boxMat (y 0)) = .ok u.1 ∧ extractPortion lf.userN1 lf.userN2 (boxMat (y 1)) = .ok u.2

/-- Exact arithmetic. -/
def exact : LowFmt where
  toFmt := Fmt.exact
  cosF := Real.cos
  sinF := Real.sin
  cos_err t := by simp [Fmt.exact]
  sin_err t := by simp [Fmt.exact]

/-- Binary floating point with `p` digits and correctly rounded functions. -/
def binary (p : ℕ) (hp : 0 < p) : LowFmt where
  toFmt := Fmt.binary p hp
  cosF t := Fmt.nearest p (Real.cos t)
  sinF t := Fmt.nearest p (Real.sin t)
  cos_err t := Fmt.nearest_err p _
  sin_err t := Fmt.nearest_err p _

end LowFmt
end
end Verif
