import Verif.Num.Round
import Verif.Model.OnePoint
import Verif.Model.Generator

/-!
# Model in rounded arithmetic

The statements of the code whose results survive rounding with a small relative error, every operation rounded (`Verif/Num/Round.lean`).
The exact arithmetic `Fmt.exact` gives the definitions of the other model files.
-/

namespace Verif

noncomputable section

namespace Fmt
variable (A : Fmt)

/-- `VKEnergySpectrum`, common.py L51: `kL**4 / (1.0 + kL**2) ** (17.0 / 6.0)`. -/
def vkEnergy (kL : ℝ) : ℝ := A.div (A.powF kL 4) (A.powF (A.add 1 (A.sq kL)) (A.rnd (17 / 6)))

/-- `VKLike_EnergySpectrum`, common.py L71: `kL ** (-5.0 / 3.0) * (kL / torch.sqrt(1.0 + kL**2)) ** (17.0 / 3.0)`. -/
def vkLike (kL : ℝ) : ℝ :=
  A.mul (A.powF kL (A.rnd (-5 / 3))) (A.powF (A.div kL (A.sqrt (A.add 1 (A.sq kL)))) (A.rnd (17 / 3)))

/-- `Learnable_EnergySpectrum`, common.py L81: `(kL ** p) / ((1.0 + kL**2) ** q)`; the exponents are numbers of the format. -/
def learnable (kL p q : ℝ) : ℝ := A.div (A.powF kL p) (A.powF (A.add 1 (A.sq kL)) q)

/-- The energy spectrum chosen in `forward`, one_point_spectra.py L247-251. -/
def spectrum : SpectrumChoice → ℝ → ℝ
  | .vkLike, kL => A.vkLike kL
  | .learnable p q, kL => A.learnable kL p q

/-- `k.norm(dim=-1)` of a wavevector, one_point_spectra.py L244, L494 (squares added from the left). -/
def norm3 (a b c : ℝ) : ℝ := A.sqrt (A.add (A.add (A.sq a) (A.sq b)) (A.sq c))

/-- `EddyLifetime`, one_point_spectra.py L494-514, for the types CONST and TWOTHIRD; `L`, `T` are the computed exponentials.
The other types call scipy, a regression or a network; for them the lifetime is a parameter of `wwPoint`. -/
def lifetime (twothird : Bool) (L T : ℝ) (k : K3) : ℝ :=
  A.mul T (if twothird then A.powF (A.mul L (A.norm3 k.k1 k.k2 k.k3)) (A.rnd (-2 / 3)) else 1)

/-- Component `Phi33` at one wavevector, one_point_spectra.py L241-253 and L566-606, at the computed lifetime `b`, with
`torch.where(Phi33 < 1e-12, 1e-12, Phi33)`. -/
def wwPoint (sp : SpectrumChoice) (L M b : ℝ) (k : K3) : ℝ :=
  let k30 := A.add k.k3 (A.mul b k.k1)
  let k0L := A.mul L (A.norm3 k.k1 k.k2 k30)
  let E0 := A.mul (A.mul M (A.powF L (A.rnd (5 / 3)))) (A.spectrum sp k0L)
  let E0 := A.div E0 (A.rnd (4 * Real.pi))
  let kk := A.add (A.add (A.sq k.k1) (A.sq k.k2)) (A.sq k.k3)
  let phi := A.mul (A.div E0 (A.sq kk)) (A.add (A.sq k.k1) (A.sq k.k2))
  if phi < A.rnd 1e-12 then A.rnd 1e-12 else phi

/-- The products that `torch.trapz(y, x)` adds: `(y[i] + y[i+1]) * (x[i+1] - x[i])`. -/
def trapzTerms : List ℝ → List ℝ → List ℝ
  | x0 :: x1 :: xs, y0 :: y1 :: ys => A.mul (A.add y0 y1) (A.sub x1 x0) :: trapzTerms (x1 :: xs) (y1 :: ys)
  | _, _ => []

/-- `t` may be returned by `torch.trapz(y, x)`: the products added in some order nested at most `d` deep, then halved. -/
def TrapzOf (x y : List ℝ) (t : ℝ) (d : ℕ) : Prop := ∃ s, Summation A (A.trapzTerms x y) s d ∧ t = A.div s 2

/-- `q` may be returned by `quad23(f)`, one_point_spectra.py L632-637: rows first, in any order of summation. -/
def Quad23Of (g2 g3 : List ℝ) (f : ℝ → ℝ → ℝ) (q : ℝ) (d : ℕ) : Prop :=
  ∃ row : ℝ → ℝ, (∀ k2 ∈ g2, A.TrapzOf g3 (g3.map (f k2)) (row k2) d) ∧ A.TrapzOf g2 (g2.map row) q d

/-- `w` may be the vertical spectrum `k1 F33` that `forward` returns at `k1`, one_point_spectra.py L213-257, for parameters
`logL`, `logM` and computed lifetimes `b`. -/
def WwOf (sp : SpectrumChoice) (logL logM : ℝ) (b : K3 → ℝ) (g : List ℝ) (k1 w : ℝ) (d : ℕ) : Prop :=
  ∃ q, A.Quad23Of g g (fun k2 k3 => A.wwPoint sp (A.expF logL) (A.expF logM) (b ⟨k1, k2, k3⟩) ⟨k1, k2, k3⟩) q d ∧ w = A.mul k1 q

/-- `VonKarmanCovariance.precompute_Spectrum`, covariance_kernels.py L105-118 (without the factor `1j`): the scalar `const`. -/
def vkConst (L E0 : ℝ) (k : K3) : ℝ :=
  let kk := A.add (A.add (A.sq k.k1) (A.sq k.k2)) (A.sq k.k3)
  let const := A.div (A.mul E0 (A.powF L (A.rnd (17 / 3)))) (A.rnd (4 * Real.pi))
  A.sqrt (A.div const (A.powF (A.add 1 (A.mul (A.sq L) kk)) (A.rnd (17 / 6))))

/-- The entries of `SqrtSpectralTens`, covariance_kernels.py L110-117. -/
def vkMat (L E0 : ℝ) (k : K3) : Fin 3 → Fin 3 → ℝ :=
  let c := A.vkConst L E0 k
  ![![0, A.mul (-c) k.k3, A.mul c k.k2], ![A.mul c k.k3, 0, A.mul (-c) k.k1], ![A.mul (-c) k.k2, A.mul c k.k1, 0]]

/-- `sd` may be computed by `np.sqrt(np.mean(curr_block**2))`, fluctuation_field_generator.py L350. -/
def SdOf (l : List ℝ) (sd : ℝ) (d : ℕ) : Prop :=
  ∃ s, Summation A (l.map A.sq) s d ∧ sd = A.sqrt (A.div s l.length)

/-- `log_law`, fluctuation_field_generator.py L589: `uref * np.log(z / z0 + 1.0) / np.log(zref / z0)`. -/
def logLaw (z z0 zref uref : ℝ) : ℝ :=
  A.div (A.mul uref (A.logF (A.add (A.div z z0) 1))) (A.logF (A.div zref z0))

/-- `power_law`, fluctuation_field_generator.py L594: `uref * (z / zref) ** a`, for `z > 0`. -/
def powerLaw (z zref uref a : ℝ) : ℝ := A.mul uref (A.powF (A.div z zref) a)

/-- `l` may be returned by `MSE_term`, loss_functions.py L140: `torch.mean(torch.log(torch.abs(model / target)).square())`; the
number of entries is converted without error. -/
def MseOf (model target : List (List ℝ)) (l : ℝ) (d : ℕ) : Prop :=
  let sq := (List.zipWith (fun r s => List.zipWith (fun x y => A.sq (A.logF |A.div x y|)) r s) model target).flatten
  ∃ s, Summation A sq s d ∧ l = A.div s sq.length

/-- `l` may be returned by `Regularization`, loss_functions.py L253: `beta_reg * theta_NN.square().mean()`. -/
def RegOf (β : ℝ) (θ : List ℝ) (l : ℝ) (d : ℕ) : Prop :=
  ∃ s, Summation A (θ.map A.sq) s d ∧ l = A.mul β (A.div s θ.length)

/-- `m` may be computed by `torch.mean((model - data) ** 2)`, loss_functions.py L324-326. -/
def MsdOf (model data : List (List ℝ)) (m : ℝ) (d : ℕ) : Prop :=
  let sq := (List.zipWith (fun r s => List.zipWith (fun x y => A.sq (A.sub x y)) r s) model data).flatten
  ∃ s, Summation A sq s d ∧ m = A.div s sq.length

end Fmt
end
end Verif
