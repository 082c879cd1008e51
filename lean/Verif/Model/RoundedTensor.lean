import Verif.Model.RoundedShear

/-!
# The one point spectra in floating point arithmetic

All six components of `PowerSpectra` and their integrals, every operation rounded with a small relative error
(`Verif/Num/Round.lean`: no overflow, no subnormal numbers).
-/

namespace Verif

noncomputable section

namespace ShearFmt
variable (A : ShearFmt)

/-- `E0` after the division by `4 * torch.pi`, one_point_spectra.py L241-253 and L585. -/
def fitEnergy (sp : SpectrumChoice) (L M b : ℝ) (k : K3) : ℝ :=
  let k0L := A.mul L (A.norm3 k.k1 k.k2 (A.k30 k b))
  A.div (A.mul (A.mul M (A.powF L (A.rnd (5 / 3)))) (A.spectrum sp k0L)) (A.rnd (4 * Real.pi))

/-- `EddyLifetime` of type MANN, one_point_spectra.py L494-503 and common.py L109-113, with a computed hypergeometric function; `L`, `T`
are the computed exponentials. -/
def fitMann (hypF : ℝ → ℝ) (L T : ℝ) (k : K3) : ℝ :=
  let x := A.mul L (A.norm3 k.k1 k.k2 k.k3)
  A.mul T (A.div (A.powF x (A.rnd (-2 / 3))) (A.sqrt (hypF (-(A.powF x (-2))))))

/-- `EddyLifetime` of type MANN_APPROX, one_point_spectra.py L494-507 and common.py L152, with given regression coefficients. -/
def fitApprox (c i L T : ℝ) (k : K3) : ℝ :=
  A.mul T (A.expF (A.add (A.mul c (A.logF (A.mul L (A.norm3 k.k1 k.k2 k.k3)))) i))

/-- `C2`, one_point_spectra.py L581: the power `3/2` of the kernels is written `torch.sqrt(s**3)` here. -/
def fitC2 (k : K3) (b : ℝ) : ℝ :=
  A.mul (A.div (A.mul k.k2 (A.sumsq k.k1 k.k2 (A.k30 k b))) (A.sqrt (A.powF (A.add (A.sq k.k1) (A.sq k.k2)) 3)))
    (A.atan2F (A.num k b) (A.den k b))

/-- `zeta1`, one_point_spectra.py L583. -/
def fitZeta1 (k : K3) (b : ℝ) : ℝ := A.sub (A.c1 k b) (A.mul (A.div k.k2 k.k1) (A.fitC2 k b))

/-- `zeta2 = C1 * k2 / k1 + C2`, one_point_spectra.py L584: product first, then quotient. -/
def fitZeta2 (k : K3) (b : ℝ) : ℝ := A.add (A.div (A.mul (A.c1 k b) k.k2) k.k1) (A.fitC2 k b)

/-- `torch.where(Phi < 1e-12, 1e-12, Phi)`, one_point_spectra.py L603-608. -/
def fitFloor (x : ℝ) : ℝ := if x < A.rnd 1e-12 then A.rnd 1e-12 else x

/-- `torch.where(torch.abs(Phi13) < 1e-12, 1e-12 * torch.sign(Phi13), Phi13)`, one_point_spectra.py L606. -/
def fitFloorSigned (x : ℝ) : ℝ := if |x| < A.rnd 1e-12 then A.mul (A.rnd 1e-12) (SignType.sign x : ℝ) else x

/-- `PowerSpectra` at one wavevector, one_point_spectra.py L566-611, in the order of the returned tuple: 11, 22, 33, 13, 23, 12. -/
def fitPhi (sp : SpectrumChoice) (L M b : ℝ) (k : K3) : Fin 6 → ℝ :=
  let k30 := A.k30 k b
  let kk0 := A.sumsq k.k1 k.k2 k30
  let kk := A.sumsq k.k1 k.k2 k.k3
  let s := A.add (A.sq k.k1) (A.sq k.k2)
  let z1 := A.fitZeta1 k b
  let z2 := A.fitZeta2 k b
  let E0 := A.fitEnergy sp L M b k
  ![A.fitFloor (A.mul (A.div E0 (A.sq kk0))
      (A.add (A.sub (A.sub kk0 (A.sq k.k1)) (A.mul (A.mul (A.mul 2 k.k1) k30) z1)) (A.mul s (A.sq z1)))),
    A.fitFloor (A.mul (A.div E0 (A.sq kk0))
      (A.add (A.sub (A.sub kk0 (A.sq k.k2)) (A.mul (A.mul (A.mul 2 k.k2) k30) z2)) (A.mul s (A.sq z2)))),
    A.fitFloor (A.mul (A.div E0 (A.sq kk)) s),
    A.fitFloorSigned (A.mul (A.div E0 (A.mul kk kk0)) (A.add (A.mul (-k.k1) k30) (A.mul s z1))),
    A.fitFloor (A.mul (A.div E0 (A.mul kk kk0)) (A.add (A.mul (-k.k2) k30) (A.mul s z2))),
    A.fitFloor (A.mul (A.div E0 (A.sq kk0))
      (A.add (A.sub (A.sub (A.mul (-k.k1) k.k2) (A.mul (A.mul k.k1 k30) z2)) (A.mul (A.mul k.k2 k30) z1))
        (A.mul (A.mul s z1) z2)))]

/-- `v` may be the column at `k1` of the tensor that `forward` returns, one_point_spectra.py L213-257, for parameters `logL`, `logM`
and computed lifetimes `b`: every component integrated in some order of summation nested at most `d` deep. -/
def SpectraOf (sp : SpectrumChoice) (logL logM : ℝ) (b : K3 → ℝ) (g : List ℝ) (k1 : ℝ) (v : Fin 6 → ℝ) (d : ℕ) : Prop :=
  ∀ i, ∃ q, A.Quad23Of g g (fun k2 k3 => A.fitPhi sp (A.expF logL) (A.expF logM) (b ⟨k1, k2, k3⟩) ⟨k1, k2, k3⟩ i) q d ∧
    v i = A.mul k1 q

/-- Exact arithmetic. -/
def exact : ShearFmt where
  toFmt := Fmt.exact
  atan2F y x := Complex.arg ⟨x, y⟩
  atan2_err y x := by simp [Fmt.exact]

end ShearFmt
end
end Verif
