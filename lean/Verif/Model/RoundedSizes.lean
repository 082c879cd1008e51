import Verif.Num.Round
import Verif.Model.Generator

/-!
# Buffer and margin sizes in floating point arithmetic

The constructor of `FluctuationFieldGenerator`, fluctuation_field_generator.py L170-183, every operation rounded
(`Verif/Num/Round.lean`).  `math.ceil` of a finite float is exact.  Lengths, time scale and dimensions are taken as the floats that the
constructor holds.
-/

namespace Verif

noncomputable section

namespace Fmt
variable (A : Fmt)

/-- `dx = L_i / N_i` with `N_i = 2**grid_level + 1`, L171-174. -/
def spacing (d : ℝ) (l : ℕ) : ℝ := A.div d (2 ^ l + 1 : ℕ)

/-- `self.n_buffer = ceil((3 * Gamma * L) / dx)`, L181. -/
def bufferSize (T L d : ℝ) (l : ℕ) : ℤ := ⌈A.div (A.mul (A.mul 3 T) L) (A.spacing d l)⌉

/-- `self.n_margin_y, self.n_margin_z = ceil(L / dy), ceil(L / dz)`, L183. -/
def marginSize (L d : ℝ) (l : ℕ) : ℤ := ⌈A.div L (A.spacing d l)⌉

end Fmt
end
end Verif
