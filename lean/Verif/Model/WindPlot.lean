import Verif.Model.Generator

/-!
# Model of `fluctuation_generation/wind_plot.py`

The data handed to plotly; the drawing itself is left out.
-/

namespace Verif
open Fl

noncomputable section

/-- A numpy array with three axes. -/
structure Cube where
  n1 : ℕ
  n2 : ℕ
  n3 : ℕ
  val : ℕ → ℕ → ℕ → Fl

/-- `x.flatten()` (C order: the last axis runs fastest). -/
def Cube.flatten (x : Cube) : List Fl :=
  (List.range x.n1).flatMap fun a => (List.range x.n2).flatMap fun b => (List.range x.n3).map fun c => x.val a b c

/-- The one-dimensional axes of `create_grid`, wind_plot.py L28-30. -/
def gridAxis (h : ℝ) (n : ℕ) : List ℝ := (List.range n).map fun k : ℕ => h * k

/-- `create_grid`, wind_plot.py L28-32; `np.meshgrid(..., indexing="ij")` has shape `(len x, len y, len z)`. -/
def createGrid (spacing : ℝ × ℝ × ℝ) (n1 n2 n3 : ℕ) : Cube × Cube × Cube :=
  let x := gridAxis spacing.1 n1
  let y := gridAxis spacing.2.1 n2
  let z := gridAxis spacing.2.2 n3
  (⟨x.length, y.length, z.length, fun a _ _ => fin (x.getD a 0)⟩,
    ⟨x.length, y.length, z.length, fun _ b _ => fin (y.getD b 0)⟩,
    ⟨x.length, y.length, z.length, fun _ _ c => fin (z.getD c 0)⟩)

/-- `format_wind_field`, wind_plot.py L51: `wind_field[..., i]` for `i = 0, 1, 2`. -/
def formatWindField (f : Field4) : Except PyErr (Fin 3 → Cube) :=
  if f.c < 3 then .error .indexError else .ok fun i => ⟨f.n1, f.n2, f.n3, fun a b c => f.val a b c i⟩

/-- `formatted_wind_field[i]` for `i = 0, 1, 2`, wind_plot.py L85, L100-128 and L201-203: with `reshape=False` the array is
indexed along its *first* axis. -/
def plotParts (f : Field4) (reshape : Bool) : Except PyErr (Fin 3 → Cube) :=
  if reshape then formatWindField f
  else if f.n1 < 3 then .error .indexError
  else .ok fun i => ⟨f.n2, f.n3, f.c, fun b c j => f.val i b c j⟩

/-- Data of one `go.Volume` trace. -/
structure Trace where
  x : List Fl
  y : List Fl
  z : List Fl
  value : List Fl

/-- The three traces of `plot_velocity_components`, wind_plot.py L83-135. -/
def plotComponents (spacing : ℝ × ℝ × ℝ) (f : Field4) (reshape : Bool) : Except PyErr (Fin 3 → Trace) :=
  let g := createGrid spacing f.n1 f.n2 f.n3
  match plotParts f reshape with
  | .error e => .error e
  | .ok parts => .ok fun i => ⟨g.1.flatten, g.2.1.flatten, g.2.2.flatten, (parts i).flatten⟩

/-- The trace of `plot_velocity_magnitude`, wind_plot.py L199-210. -/
def plotMagnitude (spacing : ℝ × ℝ × ℝ) (f : Field4) (reshape : Bool) : Except PyErr Trace :=
  let g := createGrid spacing f.n1 f.n2 f.n3
  match plotParts f reshape with
  | .error e => .error e
  | .ok parts =>
    let m : Cube := ⟨(parts 0).n1, (parts 0).n2, (parts 0).n3, fun a b c =>
      Fl.sqrt ((parts 0).val a b c * (parts 0).val a b c + (parts 1).val a b c * (parts 1).val a b c +
        (parts 2).val a b c * (parts 2).val a b c)⟩
    .ok ⟨g.1.flatten, g.2.1.flatten, g.2.2.flatten, m.flatten⟩

end
end Verif
