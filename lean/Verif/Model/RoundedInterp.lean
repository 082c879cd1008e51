import Verif.Model.Generator
import Verif.Num.Round

/-!
# The low-frequency part of a block in floating point arithmetic

The coordinates and the interpolation with which `generate` adds the low-frequency field, with every operation rounded
(`Verif/Num/Round.lean`).  The weighted sum that scipy forms is described by its accuracy alone.
-/

namespace Verif

noncomputable section
open Classical

namespace Fmt
variable (A : Fmt)

/-- Entry of `np.linspace(start, stop, n, endpoint=False)`: `arange(n) * ((stop - start) / n) + start`. -/
def linspaceOpen (start stop : ℝ) (n j : ℕ) : ℝ := A.add (A.mul j (A.div (A.sub stop start) n)) start

/-- `user_x_coords`, `user_y_coords`, `low_frequency/fluctuation_field_generator.py` L113-117, from the extent `user_L1`, `user_L2`. -/
def lowCoords (L : ℝ) (N : ℕ) : List ℝ := (List.range N).map fun i => A.linspaceOpen 0 L N i

/-- Entry `j` of `x_coords_block_target`, `fluctuation_field_generator.py` L451-455, for block `i` of `nx` planes. -/
def xTarget (g : Gen) (i nx j : ℕ) : ℝ :=
  let len := A.mul g.d1 (A.div nx g.Nx)
  let xStart := A.mul i g.d1
  let xEnd := A.add xStart len
  A.linspaceOpen xStart xEnd nx j

/-- Entry `j` of `y_coords_centered_target`, L458-477, for the extent `user_L2` as computed. -/
def yTarget (g : Gen) (userL2 : ℝ) (j : ℕ) : ℝ :=
  let center := A.div userL2 2
  let half := A.div g.d2 2
  A.linspaceOpen (A.sub center half) (A.add center half) g.Ny j

/-- Position in the interval, scipy's `norm_distances`. -/
def interpWeight (xs : List ℝ) (x : ℝ) : ℝ :=
  let i := findInterval xs x
  A.div (A.sub x (xs.getD i 0)) (A.sub (xs.getD (i + 1) 0) (xs.getD i 0))

/-- `v` may be the value of the interpolator of `interp_slice`, L566-592, at one point: outside of the nodes the fill value, inside the
sum of the four products `weight * weight * value`, computed to within `ε` of the sum of their moduli. -/
def InterpOf (xs ys : List ℝ) (m : Mat) (x y ε v : ℝ) : Prop :=
  if x < xs.headD 0 ∨ xs.getLastD 0 < x ∨ y < ys.headD 0 ∨ ys.getLastD 0 < y then v = 0
  else
    let i := findInterval xs x
    let j := findInterval ys y
    let s := A.interpWeight xs x
    let t := A.interpWeight ys y
    |v - ((1 - s) * (1 - t) * m.entry i j + (1 - s) * t * m.entry i (j + 1) + s * (1 - t) * m.entry (i + 1) j +
        s * t * m.entry (i + 1) (j + 1))| ≤
      ε * (|(1 - s) * (1 - t) * m.entry i j| + |(1 - s) * t * m.entry i (j + 1)| + |s * (1 - t) * m.entry (i + 1) j| +
        |s * t * m.entry (i + 1) (j + 1)|)

/-- Component `k` of a value of the block after `normed_block[..., 0] += u1_interp[..., np.newaxis]` and
`normed_block[..., 1] += u2_interp[..., np.newaxis]`, `fluctuation_field_generator.py` L497-498. -/
def lowSum (w v1 v2 : ℝ) (k : Fin 3) : ℝ :=
  match k with
  | 0 => A.add w v1
  | 1 => A.add w v2
  | 2 => w

end Fmt
end
end Verif
