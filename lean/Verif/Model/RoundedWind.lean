import Verif.Model.RoundedSampling
import Verif.Model.Generator

/-!
# `generate` in floating point arithmetic

Noise, sampled block, normalisation and mean wind profile with every operation rounded (`Verif/Num/Round.lean`: no overflow, no
subnormal numbers).  The numbers of cells of grid, buffer and margins are taken from the exact constructor: the code rounds quotients to
whole numbers there, and the result is a different one only if a quotient is within rounding errors of a whole number.
-/

namespace Verif

noncomputable section

namespace Fmt
variable (A : Fmt)

/-- Entry `k` of `np.linspace(0.0, d3, n)`, fluctuation_field_generator.py L352: `k * step + 0.0`, the last entry set to `d3`. -/
def zSpace (d3 : ℝ) (n k : ℕ) : ℝ := if k + 1 = n then d3 else A.add (A.mul k (A.div d3 (n - 1 : ℕ))) 0

/-- One entry of `self.L`: `h * grid_shape` with `h = grid_dimensions / (2**grid_level + 1)`, gaussian_random_fields.py L114, L117. -/
def period (d : ℝ) (l n : ℕ) : ℝ := A.mul (A.div d (2 ^ l + 1 : ℕ)) n

/-- `TransformNorm = np.sqrt(L.prod())`, sampling_methods.py L53. -/
def transformNorm (L1 L2 L3 : ℝ) : ℝ := A.sqrt (A.mul (A.mul L1 L2) L3)

/-- `noise_std = np.sqrt(np.prod(h))`, gaussian_random_fields.py L130. -/
def noiseStd (d1 d2 d3 : ℝ) (l1 l2 l3 : ℕ) : ℝ :=
  A.sqrt (A.mul (A.mul (A.div d1 (2 ^ l1 + 1 : ℕ)) (A.div d2 (2 ^ l2 + 1 : ℕ))) (A.div d3 (2 ^ l3 + 1 : ℕ)))

/-- One frequency `(2 * np.pi / L) * (N * fftfreq(N))`, sampling_methods.py L52; `fftfreq` multiplies whole numbers by `1.0 / N`. -/
def freq (L : ℝ) (n : ℕ) (j : ZMod n) : ℝ :=
  A.mul (A.div (A.mul 2 (A.rnd Real.pi)) L) (A.mul n (A.mul (fftIdx n j : ℤ) (A.div 1 n)))

/-- The wavevector of an index. -/
def freqOf {n1 n2 n3 : ℕ} (L1 L2 L3 : ℝ) (k : Box n1 n2 n3) : K3 := ⟨A.freq L1 n1 k.1, A.freq L2 n2 k.2.1, A.freq L3 n3 k.2.2⟩

/-- `mean_profile_z` at a height, fluctuation_field_generator.py L353-357. -/
def meanWind (p : ProfileArgs) (z : ℝ) : ℝ :=
  if p.ptype = "LOG" then A.logLaw z p.z0 p.zref p.uref else A.powerLaw z p.zref p.uref (p.plexp.getD 0)

end Fmt

/-- `w` may be block `j` of the field of a generator without low-frequency part, fluctuation_field_generator.py L261-285, L337-368.
`Sh`, `norm`, `std` are the computed `Spectrum_half`, `TransformNorm` and `noise_std`.  The noise of block `j` is that of the block
before, moved by `Nx` planes, with new planes at the end (L269-273); no arithmetic but the product with `noise_std`
(gaussian_random_fields.py L207) is involved, and its entries are values of the random stream in order.  `d` is the depth of the
summation in `np.mean`. -/
def WindRounded (A : Fmt) (g : Gen) [NeZero g.shape1.toNat] [NeZero g.shape2.toNat] [NeZero g.shape3.toNat] (j : ℕ)
    (p : ProfileArgs) (Sh : Box g.shape1.toNat g.shape2.toNat g.shape3.toNat → Matrix (Fin 3) (Fin 3) ℂ) (norm std η ε ν : ℝ) (d : ℕ)
    (w : Fin g.Nx × Fin g.Ny × Fin g.Nz × Fin 3 → ℝ) : Prop :=
  ∃ y : Box g.shape1.toNat g.shape2.toNat g.shape3.toNat → Fin 3 → ℝ,
    -- L269-276
    VfRounded Sh norm (fun x l => A.mul
      (g.gauss ((((j * g.Nx + x.1.val) * g.shape2.toNat + x.2.1.val) * g.shape3.toNat + x.2.2.val) * 3 + l.val)) std) η ε ν y ∧
    ∃ v : Fin g.Nx × Fin g.Ny × Fin g.Nz × Fin 3 → ℝ,
      -- L277, `central_part`
      (∀ r b c k, v (r, b, c, k) = y (((g.nb.toNat + r : ℕ) : ZMod _), ((g.my.toNat + b : ℕ) : ZMod _), ((c : ℕ) : ZMod _)) k) ∧
      -- L338
      (∃ x, v x ≠ 0) ∧
      -- L350
      ∃ sd, A.SdOf ((Finset.univ : Finset (Fin g.Nx × Fin g.Ny × Fin g.Nz × Fin 3)).toList.map v) sd d ∧
        -- L351-366
        ∀ r b c k, w (r, b, c, k) = A.add (A.div (v (r, b, c, k)) sd)
          (if k = 0 then A.meanWind p (A.zSpace g.d3 (2 ^ g.l3 + 1) c) else 0)

end
end Verif
