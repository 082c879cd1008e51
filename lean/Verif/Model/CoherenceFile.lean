import Verif.Num.Fl
import Verif.Num.Py
import Mathlib.Data.Finset.Sort
import Mathlib.Data.Int.Interval
import Mathlib.Algebra.Order.Floor.Ring
import Mathlib.Data.Real.Archimedean

/-!
# Model of `CalibrationProblem.load_coherence_data` (drdmannturb/spectra_fitting/calibration.py L1169-1249)

The parsing of the text file by pandas is not modelled: a file is the list of its rows, with integer index columns and
finite real values.
-/

namespace Verif
open Fl

noncomputable section

/-- One row of the file; the columns read by the code (L1184-1188, L1212-1217). -/
structure CohRow where
  sepIdx : ℤ
  freqIdx : ℤ
  sep : ℝ
  freq : ℝ
  u : ℝ
  v : ℝ
  w : ℝ

/-- The distinct values of an index column in increasing order (the index of `groupby(...).first().sort_index()`,
L1187-1188). -/
def uniqueIdx (l : List ℤ) : List ℤ := l.toFinset.sort (· ≤ ·)

/-- `groupby(idx)[value].first().sort_index().values`, L1187-1191. -/
def firstValues (rows : List CohRow) (idx : CohRow → ℤ) (val : CohRow → ℝ) : List ℝ :=
  (uniqueIdx (rows.map idx)).filterMap fun i => (rows.find? fun r => idx r = i).map val

/-- A grid of coherence values. -/
abbrev CohGrid := ℕ → ℕ → Fl

/-- Normalisation of a numpy index along an axis of length `n` (negative indices count from the end). -/
def npIndex (n : ℕ) (i : ℤ) : Except PyErr ℕ :=
  if 0 ≤ i ∧ i < n then .ok i.toNat
  else if i < 0 ∧ 0 ≤ i + n then .ok (i + n).toNat
  else .error .indexError

/-- One step of the loop over the rows, L1211-1217 (the three grids are filled together). -/
def fillRow (n m : ℕ) (val : CohRow → ℝ) (g : CohGrid) (r : CohRow) : Except PyErr CohGrid :=
  if r.sepIdx < n ∧ r.freqIdx < m then
    match npIndex n r.sepIdx, npIndex m r.freqIdx with
    | .ok i, .ok j => .ok fun a b => if a = i ∧ b = j then fin (val r) else g a b
    | _, _ => .error .indexError
  else .ok g

/-- `np.full(nan)` followed by the loop, L1206-1217. -/
def fillAll (n m : ℕ) (val : CohRow → ℝ) (rows : List CohRow) : Except PyErr CohGrid :=
  rows.foldlM (fillRow n m val) fun _ _ => nan

/-- `values.reshape(n_seps, n_freqs)`, L1226-1228. -/
def reshapeGrid (m : ℕ) (val : CohRow → ℝ) (rows : List CohRow) : CohGrid :=
  fun a b => match rows[a * m + b]? with
    | some r => fin (val r)
    | none => nan

/-- The attributes stored (L1231-1241). -/
structure CohFileData where
  seps : List ℝ
  freqs : List ℝ
  u : CohGrid
  v : CohGrid
  w : CohGrid
  nSeps : ℕ
  nFreqs : ℕ
  sepIndices : List ℤ

/-- `np.linspace(0, n - 1, 4, dtype=int)` (L1239): numpy computes `k * step`, replaces the last entry by `stop` and
rounds down. -/
def plotSepIndices (n : ℕ) : List ℤ :=
  let step : ℝ := (((n : ℝ) - 1) - 0) / 3
  [⌊0 * step⌋, ⌊1 * step⌋, ⌊2 * step⌋, ⌊(n : ℝ) - 1⌋]

/-- `load_coherence_data`, L1169-1249.  The attributes are assigned before the separations are selected, so they survive
the `IndexError` of an empty file. -/
def loadCoherence (rows : List CohRow) : Except PyErr Unit × Option CohFileData :=
  let seps := firstValues rows CohRow.sepIdx CohRow.sep
  let freqs := firstValues rows CohRow.freqIdx CohRow.freq
  let n := seps.length
  let m := freqs.length
  let grids : Except PyErr (CohGrid × CohGrid × CohGrid) :=
    if rows.length ≠ n * m then
      match fillAll n m CohRow.u rows, fillAll n m CohRow.v rows, fillAll n m CohRow.w rows with
      | .ok u, .ok v, .ok w => .ok (u, v, w)
      | _, _, _ => .error .indexError
    else .ok (reshapeGrid m CohRow.u rows, reshapeGrid m CohRow.v rows, reshapeGrid m CohRow.w rows)
  match grids with
  | .error e => (.error e, none)
  | .ok (u, v, w) =>
    let d : CohFileData := ⟨seps, freqs, u, v, w, n, m, plotSepIndices n⟩
    -- L1241: `unique_seps[sep_indices]`
    if n = 0 then (.error .indexError, some d) else (.ok (), some d)

end
end Verif
