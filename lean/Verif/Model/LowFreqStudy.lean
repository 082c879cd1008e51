import Verif.Model.LowFreq
import Mathlib.Data.List.Sort

/-!
# Model of the studies in `fluctuation_generation/low_frequency/large_plot.py`

Drawing and printing are left out, except that `ax.plot(x, y)` raises `ValueError` when the two arrays differ in length.
The jobs of a study run in other processes; each starts with an arbitrary random stream and position.
-/

namespace Verif

noncomputable section
open Classical

/-- `u += v` for two-dimensional arrays: `v` is broadcast to the shape of `u`, which cannot change. -/
def Mat.iadd (u v : Mat) : Except PyErr Mat :=
  let n1 := u.length
  let n2 := (u.headD []).length
  let m1 := v.length
  let m2 := (v.headD []).length
  if (m1 = n1 ∨ m1 = 1) ∧ (m2 = n2 ∨ m2 = 1) then
    pure (tab2 n1 n2 fun i j => u.entry i j + v.entry (if m1 = 1 then 0 else i) (if m2 = 1 then 0 else j))
  else throw PyErr.valueError

/-- `np.mean` over all entries. -/
def Mat.mean (m : Mat) : ℝ := m.flatten.sum / m.flatten.length

/-- `np.var` over all entries. -/
def Mat.var (m : Mat) : ℝ := (m.flatten.map fun x => (x - m.mean) ^ 2).sum / m.flatten.length

/-- What `_run_single_mesh` and `_run_single_domain_size` return besides the key. -/
structure StudyRow where
  norm1 : ℝ
  norm2 : ℝ
  var1 : ℝ
  var2 : ℝ

/-- The loop over the realizations, L26-29 and L114-117. -/
def studyLoop (lf : LowFreq) (g : ℕ → ℝ) : ℕ → ℕ → Mat → Mat → Except PyErr (Mat × Mat)
  | 0, _, u1, u2 => pure (u1, u2)
  | n + 1, pos, u1, u2 =>
    match lf.generate g pos with
    | (.error e, _) => throw e
    | (.ok (c1, c2), (lf', pos')) =>
      match u1.iadd c1 with
      | .error e => throw e
      | .ok u1 =>
        match u2.iadd c2 with
        | .error e => throw e
        | .ok u2 => studyLoop lf' g n pos' u1 u2

/-- `_run_single_mesh`, L12-44, and `_run_single_domain_size`, L100-134, for the configuration they build.  The division
by `num_realizations` is a real division (numpy gives NaN for 0 realizations). -/
def studyRun (cfg : LFConfig) (R : ℕ) (g : ℕ → ℝ) (pos : ℕ) : Except PyErr StudyRow := do
  let lf ← lfInit cfg
  -- `np.zeros_like(gen.k1)`: the shape of the computational grid
  let zero := tab2 lf.compN1 lf.compN2 fun _ _ => 0
  let (u1, u2) ← studyLoop lf g R pos zero zero
  let avg : Mat → Mat := fun u => u.map fun row => row.map fun x => x / (R : ℝ)
  let norm := fun (u : Mat) => (u.flatten.map fun x => x ^ 2).sum * lf.userDx * lf.userDy
  pure ⟨norm (avg u1), norm (avg u2), (avg u1).var, (avg u2).var⟩

/-- The successful jobs of a study, L63-70 and L154-161: a failed job only prints its error. -/
def studyResults {κ : Type} (keys : List κ) (cfg : κ → LFConfig) (rng : ℕ → (ℕ → ℝ) × ℕ) : List (κ × StudyRow) :=
  keys.zipIdx.filterMap fun (k, job) =>
    match studyRun (cfg k) 5 (rng job).1 (rng job).2 with
    | .error _ => none
    | .ok row => some (k, row)

/-- Configuration of `mesh_independence_study`, L49-58, with the exponents of `_run_single_mesh`. -/
def meshConfig (e : ℕ) : LFConfig := ⟨2, 15000, Real.pi / 4, 500, 4, 4, e, e⟩

/-- `mesh_independence_study`, L47-95: `none` when nothing is drawn.  The exponents are distinct and ascending, so sorting
the results by exponent restores the order of submission. -/
def meshStudy (low high : ℕ) (rng : ℕ → (ℕ → ℝ) × ℕ) : Except PyErr (Option (List ℕ × List StudyRow)) :=
  let exponents := List.range' low (high + 1 - low)
  let results := studyResults exponents meshConfig rng
  if results = [] then pure none
  else if results.length ≠ exponents.length then throw PyErr.valueError
  else pure (some (exponents, results.map Prod.snd))

/-- Configuration of `domain_size_study`, L142-151, with the factors of `_run_single_domain_size`. -/
def domainConfig (f : ℝ) : LFConfig := ⟨2, 15000, Real.pi / 4, 500, f, f, 9, 9⟩

/-- `domain_size_study`, L137-190: the drawn points, sorted by factor (domain size in kilometres and the four values). -/
def domainStudy (factors : List ℝ) (rng : ℕ → (ℕ → ℝ) × ℕ) : Option (List (ℝ × StudyRow)) :=
  let results := studyResults factors domainConfig rng
  if results = [] then none
  else some ((results.mergeSort fun a b => decide (a.1 ≤ b.1)).map fun r => (15000 * r.1 / 1000, r.2))

/-- The variances `plot_spectra_comparison` prints as "From F11_num" and "From F22_num", L210-227 (`k_tol` is the default
of `compute_spectrum`). -/
def printedVariances (lf : LowFreq) : Except PyErr (ℝ × ℝ) := do
  let (ks, F11, F22) ← lf.computeSpectrum 1e-9
  let dk1 := if ks.length > 1 then ks.getD 1 0 - ks.getD 0 0 else 0
  let total := fun (F : List ℝ) => if dk1 > 0 then F.sum * dk1 else 0
  pure (total F11, total F22)

end
end Verif
