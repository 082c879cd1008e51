import Verif.Num.Fl
import Verif.Num.Py

/-!
# Synthetic one-point spectra (`spectra_fitting/data_generator.py`) and the target assembled by `calibrate`
-/

namespace Verif
open Fl

noncomputable section

/-- One `3 x 3` entry of the `ops` array. -/
abbrev Mat3 := Fin 3 → Fin 3 → Fl

/-- Zero-initialised matrix with the given entries. -/
def mat3 (xx yy zz xz : Fl) : Mat3 := fun i j =>
  if i = 0 ∧ j = 0 then xx
  else if i = 1 ∧ j = 1 then yy
  else if i = 2 ∧ j = 2 then zz
  else if i = 0 ∧ j = 2 then xz
  else 0

open Classical in
/-- `generate_von_karman_spectra`, data_generator.py L16-48: the `ops` entry of the returned dictionary.
`L ** (-2)` raises `ZeroDivisionError` for `L = 0`. -/
def generateVonKarman (k1s : List ℝ) (L C : ℝ) : Except PyErr (List Mat3) :=
  if L = 0 then .error .zeroDivisionError else
  let Li := fin (L ^ (-2 : ℝ))
  .ok (k1s.map fun k1 =>
    let k2 := fin k1 * fin k1
    let den := Li + k2
    let f11 := fin (9 / 55) * fin C / Fl.pow den (5 / 6)
    let f22 := fin (3 / 110) * fin C * (fin 3 * Li + fin 8 * k2) / Fl.pow den (11 / 6)
    let m := mat3 f11 f22 f22 0
    fun i j => m i j * fin k1)

/-- `generate_kaimal_spectra`, data_generator.py L51-86: the `ops` entry of the returned dictionary. -/
def generateKaimal (k1s : List ℝ) (zref ustar : ℝ) : List Mat3 :=
  k1s.map fun k1 =>
    let n := fin (1 / (2 * Real.pi)) * fin k1 * fin zref
    let m := mat3
      (fin 52.5 * n / Fl.pow (fin 1 + fin 33 * n) (5 / 3))
      (fin 8.5 * n / Fl.pow (fin 1 + fin 9.5 * n) (5 / 3))
      (fin 1.05 * n / (fin 1 + fin 5.3 * Fl.pow n (5 / 3)))
      (fin (-7) * n / Fl.pow (fin 1 + fin 9.6 * n) (12 / 5))
    fun i j => m i j * fin (ustar ^ 2)

/-- Columns concatenated into the flat target, calibration.py L359-386 (`num_components` 3, 4, 6; any other value leaves
`kF_data_vals` undefined: AttributeError). -/
def kFDataVals (nc : ℕ) (ops : List Mat3) : Except PyErr (List Fl) :=
  let col (i j : Fin 3) : List Fl := ops.map fun m => m i j
  if nc = 3 then .ok (col 0 0 ++ col 1 1 ++ col 2 2)
  else if nc = 4 then .ok (col 0 0 ++ col 1 1 ++ col 2 2 ++ col 0 2)
  else if nc = 6 then .ok (col 0 0 ++ col 1 1 ++ col 2 2 ++ col 0 2 ++ col 1 2 ++ col 0 1)
  else .error .attributeError

/-- `flat.view(n, w)`: rows of length `w` (row-major). -/
def viewRows {α : Type*} : ℕ → ℕ → List α → List (List α)
  | 0, _, _ => []
  | n + 1, w, l => l.take w :: viewRows n w (l.drop w)

/-- The target tensor `y_data[self.curves]` (calibration.py L394-400, L436): `y_data` is `zeros_like(y)` with `nk1`
columns; the assignment broadcasts a single column and raises `RuntimeError` for any other mismatch.  Only the first
`num_components` rows are compared. -/
def targetRows (nc : ℕ) (ops : List Mat3) (nk1 : ℕ) : Except PyErr (List (List Fl)) :=
  match kFDataVals nc ops with
  | .error e => .error e
  | .ok flat =>
    let w := flat.length / nc
    let rows := viewRows nc w flat
    if w = nk1 then .ok rows
    else if w = 1 then .ok (rows.map fun r => List.replicate nk1 (r.headD 0))
    else .error .runtimeError

end
end Verif
