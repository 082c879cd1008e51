import Verif.Model.RoundedTensor
import Verif.Model.OnePointState

/-!
# The coherence in floating point arithmetic

`SpectralCoherence` with every operation rounded with a small relative error (`Verif/Num/Round.lean`: no overflow, no subnormal
numbers).  The coherence grid is taken as stored.
-/

namespace Verif

noncomputable section

/-- A format with the complex functions that the coherence needs. -/
structure CohFmt extends ShearFmt where
  /-- real part of `torch.exp` of an imaginary number -/
  cosF : ℝ → ℝ
  /-- imaginary part of `torch.exp` of an imaginary number -/
  sinF : ℝ → ℝ
  /-- `torch.abs` of a complex number -/
  hypotF : ℝ → ℝ → ℝ
  cos_err : ∀ t, |cosF t - Real.cos t| ≤ v
  sin_err : ∀ t, |sinF t - Real.sin t| ≤ v
  hypot_err : ∀ x y, |hypotF x y - Real.sqrt (x ^ 2 + y ^ 2)| ≤ v * Real.sqrt (x ^ 2 + y ^ 2)

namespace CohFmt
variable (A : CohFmt)

/-- `torch.where(Phi < epsilon, epsilon, Phi)` with `epsilon = 1e-32`, one_point_spectra.py L390-393. -/
def cohFloor (x : ℝ) : ℝ := if x < A.rnd 1e-32 then A.rnd 1e-32 else x

/-- The auto components of `_PowerSpectra_coherence`, one_point_spectra.py L365-393, with `E0_coh` of L305-323 divided by `4 * torch.pi`
(L380); the coefficients are those of `PowerSpectra`, written the same way. -/
def cohAuto (sp : SpectrumChoice) (L M b : ℝ) (k : K3) : Comp3 → ℝ
  | .u =>
    let k30 := A.k30 k b
    let kk0 := A.sumsq k.k1 k.k2 k30
    let s := A.add (A.sq k.k1) (A.sq k.k2)
    let z1 := A.fitZeta1 k b
    A.cohFloor (A.mul (A.div (A.fitEnergy sp L M b k) (A.sq kk0))
      (A.add (A.sub (A.sub kk0 (A.sq k.k1)) (A.mul (A.mul (A.mul 2 k.k1) k30) z1)) (A.mul s (A.sq z1))))
  | .v =>
    let k30 := A.k30 k b
    let kk0 := A.sumsq k.k1 k.k2 k30
    let s := A.add (A.sq k.k1) (A.sq k.k2)
    let z2 := A.fitZeta2 k b
    A.cohFloor (A.mul (A.div (A.fitEnergy sp L M b k) (A.sq kk0))
      (A.add (A.sub (A.sub kk0 (A.sq k.k2)) (A.mul (A.mul (A.mul 2 k.k2) k30) z2)) (A.mul s (A.sq z2))))
  | .w =>
    let kk := A.sumsq k.k1 k.k2 k.k3
    let s := A.add (A.sq k.k1) (A.sq k.k2)
    A.cohFloor (A.mul (A.div (A.fitEnergy sp L M b k) (A.sq kk)) s)

/-- `x` may be the coherence that `SpectralCoherence` returns for component `c`, wavenumber `k1` and separation `r`,
one_point_spectra.py L333-361: the phase `k2 * r` is rounded, the integrand is multiplied and integrated (L402-407) separately in the
real and in the imaginary part, in some order of summation nested at most `d` deep, and the squares of the moduli are divided. -/
def CoherenceOf (sp : SpectrumChoice) (logL logM : ℝ) (b : K3 → ℝ) (g : List ℝ) (c : Comp3) (k1 r x : ℝ) (d : ℕ) : Prop :=
  let Φ := fun k2 k3 => A.cohAuto sp (A.expF logL) (A.expF logM) (b ⟨k1, k2, k3⟩) ⟨k1, k2, k3⟩ c
  ∃ q re im, A.Quad23Of g g Φ q d ∧ A.Quad23Of g g (fun k2 k3 => A.mul (Φ k2 k3) (A.cosF (A.mul k2 r))) re d ∧
    A.Quad23Of g g (fun k2 k3 => A.mul (Φ k2 k3) (A.sinF (A.mul k2 r))) im d ∧
    x = A.div (A.sq (A.hypotF re im)) (A.sq |q|)

/-- Exact arithmetic. -/
def exact : CohFmt where
  toShearFmt := ShearFmt.exact
  cosF := Real.cos
  sinF := Real.sin
  hypotF x y := Real.sqrt (x ^ 2 + y ^ 2)
  cos_err t := by simp [ShearFmt.exact, Fmt.exact]
  sin_err t := by simp [ShearFmt.exact, Fmt.exact]
  hypot_err x y := by simp [ShearFmt.exact, Fmt.exact]

end CohFmt
end
end Verif
