import Verif.Model.LowFreq

/-!
# Model of `LowFreqGenerator.plot_velocity_fields`

The arguments handed to `imshow` and what `imshow` draws from them.  Titles, labels, colour bars and figure layout are left out.
-/

namespace Verif

noncomputable section
open Classical

/-- `np.min` of an array with the given entries; raises for an empty one. -/
def npMin : List ℝ → Except PyErr ℝ
  | [] => .error .valueError
  | x :: xs => .ok (xs.foldl min x)

/-- `np.max`. -/
def npMax : List ℝ → Except PyErr ℝ
  | [] => .error .valueError
  | x :: xs => .ok (xs.foldl max x)

/-- `m.T`. -/
def Mat.T (m : Mat) : Mat := tab2 (m.headD []).length m.length fun j i => m.entry i j

/-- One image: the array, its extent and its colour limits. -/
structure Image where
  data : Mat
  left : ℝ
  right : ℝ
  bottom : ℝ
  top : ℝ
  vmin : ℝ
  vmax : ℝ

/-- `plot_velocity_fields`, fluctuation_field_generator.py L907-956: the two images.  `X[0, 0]`, `X[-1, 0]`, `Y[0, 0]`, `Y[0, -1]`
are the first and last user coordinates (L113-116; there is at least one along each axis). -/
def LowFreq.plotFields (lf : LowFreq) : Except PyErr (Image × Image) :=
  match lf.u with
  | none => .error .runtimeError
  | some (u1, u2) => do
    let xs := lfCoords lf.userL1 lf.userN1
    let ys := lfCoords lf.userL2 lf.userN2
    let min1 ← npMin u1.flatten
    let min2 ← npMin u2.flatten
    let max1 ← npMax u1.flatten
    let max2 ← npMax u2.flatten
    let vmin := min min1 min2
    let vmax := max max1 max2
    let vlim := max |vmin| |vmax|
    let dx := lf.userDx / 1000
    let dy := lf.userDy / 1000
    let x0 := xs.headD 0 / 1000 - dx / 2
    let x1 := xs.getLastD 0 / 1000 + dx / 2
    let y0 := ys.headD 0 / 1000 - dy / 2
    let y1 := ys.getLastD 0 / 1000 + dy / 2
    pure (⟨u1.T, x0, x1, y0, y1, -vlim, vlim⟩, ⟨u2.T, x0, x1, y0, y1, -vlim, vlim⟩)

/-- The value drawn at the point `(x, y)` of the axes: `imshow` with `origin="lower"` and `interpolation="nearest"` divides the
extent into as many equal columns and rows as the array has, row 0 at the bottom. -/
def Image.valueAt (im : Image) (x y : ℝ) : Option ℝ :=
  let rows := im.data.length
  let cols := (im.data.headD []).length
  if im.left ≤ x ∧ x < im.right ∧ im.bottom ≤ y ∧ y < im.top then
    let c := ⌊(x - im.left) / ((im.right - im.left) / cols)⌋₊
    let r := ⌊(y - im.bottom) / ((im.top - im.bottom) / rows)⌋₊
    some (im.data.entry r c)
  else none

/-- Position of a value on the colour map, 0 to 1: `matplotlib.colors.Normalize` (0 if the two limits agree) and clipping by
the colour map. -/
def Image.shade (im : Image) (v : ℝ) : ℝ :=
  if im.vmin = im.vmax then 0 else max 0 (min 1 ((v - im.vmin) / (im.vmax - im.vmin)))

end
end Verif
