import Verif.Model.Sampling
import Verif.Num.Py
import Mathlib.MeasureTheory.Integral.IntervalIntegral.Basic
import Mathlib.Data.Finset.Sort

/-!
# Model of `fluctuation_generation/low_frequency/fluctuation_field_generator.py`

A two-dimensional array is a list of rows; the two-dimensional transforms are the three-dimensional ones of
`Verif.Model.Sampling` with one point along the last axis.  `scipy.integrate.quad` is the exact integral.  Plotting and
printing are left out.  The configuration dictionary is a record, so a missing key is not modelled; exponents are
non-negative integers.
-/

namespace Verif

noncomputable section
open Classical MeasureTheory

/-- A two-dimensional array, row by row. -/
abbrev Mat := List (List ℝ)

/-- Array with entries `f i j`. -/
def tab2 (n1 n2 : ℕ) (f : ℕ → ℕ → ℝ) : Mat := (List.range n1).map fun i => (List.range n2).map fun j => f i j

/-- Entry `m[i, j]` (0 outside). -/
def Mat.entry (m : Mat) (i j : ℕ) : ℝ := (m.getD i []).getD j 0

/-- The configuration dictionary, L95-108. -/
structure LFConfig where
  sigma2 : ℝ
  L2d : ℝ
  psi : ℝ
  zi : ℝ
  L1factor : ℝ
  L2factor : ℝ
  exp1 : ℕ
  exp2 : ℕ

/-- A `LowFreqGenerator` object. -/
structure LowFreq where
  cfg : LFConfig
  c : ℝ
  userL1 : ℝ
  userL2 : ℝ
  userN1 : ℕ
  userN2 : ℕ
  userDx : ℝ
  userDy : ℝ
  compL1 : ℝ
  compL2 : ℝ
  compN1 : ℕ
  compN2 : ℕ
  compDx : ℝ
  compDy : ℝ
  full : Option (Mat × Mat)
  u : Option (Mat × Mat)

/-- Division of python floats. -/
def pyDiv (a b : ℝ) : Except PyErr ℝ := if b = 0 then throw PyErr.zeroDivisionError else pure (a / b)

/-- `integrand_shape`, L255-275. -/
def integrandShape (L2d zi kappa : ℝ) : ℝ :=
  let kappaSq := kappa ^ 2
  if kappaSq < 1e-30 then 0
  else
    let denom1 := (1 / L2d ^ 2 + kappaSq) ^ (7 / 3 : ℝ)
    let denom2 := 1 + kappaSq * zi ^ 2
    let denominator := denom1 * denom2
    if denominator < 1e-30 then 0
    else if kappa < 1e-30 then 0
    else kappa ^ 3 / denominator

/-- `_compute_c`, L224-285; `L_2d ** -2` raises for `L_2d = 0`. -/
def computeC (sigma2 L2d zi : ℝ) : Except PyErr ℝ :=
  if L2d = 0 then throw PyErr.zeroDivisionError
  else
    let integralVal := ∫ kappa in Set.Ioi (0 : ℝ), integrandShape L2d zi kappa
    if integralVal < 1e-16 then throw PyErr.valueError
    else pure (sigma2 / (2 * integralVal))

/-- Number of points along one axis of the computational grid, L199-206. -/
def evenCount (nMinIdeal : ℤ) : ℤ :=
  let n := if nMinIdeal > 0 then nMinIdeal + nMinIdeal % 2 else 0
  if nMinIdeal > 0 then max n 2 else 0

/-- `_calculate_buffer_sizes`, L148-222 (the warning is left out). -/
def bufferSizes (L2d userL1 userL2 userDx userDy : ℝ) : Except PyErr (ℝ × ℝ × ℕ × ℕ) := do
  let compD := min userDx userDy
  let L1target := max userL1 (5 * L2d)
  let L2target := max userL2 (5 * L2d)
  let r1 ← pyDiv L1target compD
  let r2 ← pyDiv L2target compD
  let compN1 := evenCount ⌈r1⌉
  let compN2 := evenCount ⌈r2⌉
  let compL1 := (compN1 : ℝ) * compD
  let compL2 := (compN2 : ℝ) * compD
  let tolerance : ℝ := 1e-9
  if ¬ (L1target - tolerance ≤ compL1 ∧ L2target - tolerance ≤ compL2) then throw PyErr.runtimeError
  else pure (compL1, compL2, compN1.toNat, compN2.toNat)

/-- `np.isclose` with the default tolerances. -/
def isClose (a b : ℝ) : Prop := |a - b| ≤ 1e-8 + 1e-5 * |b|

/-- `LowFreqGenerator.__init__`, L87-141.  The wavenumber arrays are functions of the stored values (`lfFreq`). -/
def lfInit (cfg : LFConfig) : Except PyErr LowFreq := do
  let c ← computeC cfg.sigma2 cfg.L2d cfg.zi
  let userL1 := cfg.L1factor * cfg.L2d
  let userL2 := cfg.L2factor * cfg.L2d
  let userN1 := 2 ^ cfg.exp1
  let userN2 := 2 ^ cfg.exp2
  let userDx := userL1 / (userN1 : ℕ)
  let userDy := userL2 / (userN2 : ℕ)
  let (compL1, compL2, compN1, compN2) ← bufferSizes cfg.L2d userL1 userL2 userDx userDy
  let compDx ← pyDiv compL1 compN1
  let compDy ← pyDiv compL2 compN2
  if ¬ isClose compDx compDy then throw PyErr.valueError
  else pure ⟨cfg, c, userL1, userL2, userN1, userN2, userDx, userDy, compL1, compL2, compN1, compN2, compDx, compDy,
    none, none⟩

/-- `user_x_coords` / `user_y_coords`, L113-114: `np.linspace(0, L, N, endpoint=False)`. -/
def lfCoords (L : ℝ) (N : ℕ) : List ℝ := (List.range N).map fun i : ℕ => (i : ℝ) * (L / N)

/-- Entry of `k1_fft`, `k2_fft`, L130-131: `2 pi fftfreq(n, d)`. -/
def lfFreq (n : ℕ) (d : ℝ) (j : ZMod n) : ℝ := 2 * Real.pi * ((fftIdx n j : ℝ) / (n * d))

/-- `kappa_sq`, L345. -/
def lfKappaSq (psi k1 k2 : ℝ) : ℝ := 2 * ((k1 * Real.cos psi) ^ 2 + (k2 * Real.sin psi) ^ 2)

/-- One entry of `phi_`, L347-382. -/
def lfPhi (c L2d psi zi dx dy k1 k2 : ℝ) : ℝ :=
  let kSq := k1 ^ 2 + k2 ^ 2
  let kappaSq := lfKappaSq psi k1 k2
  let gridScale := 2 * Real.pi / Real.sqrt (max (dx * dy) 1e-16)
  if kSq < 1e-20 then 0
  else
    let k := Real.sqrt kSq
    let kappa := Real.sqrt (max kappaSq 1e-20)
    let denom1 := (1 / L2d ^ 2 + kappaSq) ^ (7 / 3 : ℝ)
    let denom2 := 1 + kappaSq * zi ^ 2
    let denominator := denom1 * denom2
    let energy := if denominator < 1e-30 then 0 else c * kappa ^ 3 / denominator
    let phiTerm := energy / (Real.pi * k ^ 3)
    Real.sqrt (max phiTerm 0) * gridScale

section
variable {n1 n2 : ℕ} [NeZero n1] [NeZero n2]

/-- `Q1`, `Q2`, L385-386: the transfer function of component `i` at a mode. -/
def lfQ (lf : LowFreq) (i : Fin 2) (k : Box n1 n2 1) : ℂ :=
  let k1 := lfFreq n1 lf.compDx k.1
  let k2 := lfFreq n2 lf.compDy k.2.1
  let phi := lfPhi lf.c lf.cfg.L2d lf.cfg.psi lf.cfg.zi lf.compDx lf.compDy k1 k2
  match i with
  | 0 => Complex.I * phi * k2
  | 1 => Complex.I * phi * ((-1) * k1)

/-- The complex array whose real part is kept, L490-505: `ifft2(Q * fft2(noise))`. -/
def lfField (lf : LowFreq) (noise : Box n1 n2 1 → ℝ) (i : Fin 2) : Box n1 n2 1 → ℂ :=
  ifftn fun k => lfQ lf i k * fftn (fun x => (noise x : ℂ)) k

/-- `u1_full`, `u2_full`, L504-505. -/
def lfFull (lf : LowFreq) (noise : Box n1 n2 1 → ℝ) (i : Fin 2) (x : Box n1 n2 1) : ℝ := (lfField lf noise i x).re

/-- `np.random.normal(0, 1, size=(N1, N2))`, L484: values of the stream `g` from position `pos`, in C order. -/
def lfNoise (g : ℕ → ℝ) (pos : ℕ) (x : Box n1 n2 1) : ℝ := g (pos + (x.1.val * n2 + x.2.1.val))

/-- A function on the grid as an array. -/
def boxMat (f : Box n1 n2 1 → ℝ) : Mat := tab2 n1 n2 fun i j => f (i, j, 0)

end

/-- `_extract_field_portion`, L403-453. -/
def extractPortion (n1 n2 : ℕ) (field : Mat) : Except PyErr Mat :=
  let nx := field.length
  let ny := (field.headD []).length
  if nx = n1 ∧ ny = n2 then pure field
  else
    let startX : ℤ := ((nx : ℤ) - n1) / 2
    let startY : ℤ := ((ny : ℤ) - n2) / 2
    let cut := fun {α : Type} (l : List α) (s : ℤ) (n : ℕ) => pySlice l (some s) (some (s + n))
    let extracted := (cut field startX n1).map fun row => cut row startY n2
    if extracted.length ≠ n1 ∨ (cut (List.range ny) startY n2).length ≠ n2 then throw PyErr.valueError
    else pure extracted

/-- `generate`, L455-522; `g` is the stream of numpy's global generator and `pos` the number of values consumed so far. -/
def LowFreq.generate (lf : LowFreq) (g : ℕ → ℝ) (pos : ℕ) : Except PyErr (Mat × Mat) × (LowFreq × ℕ) :=
  if h : 0 < lf.compN1 ∧ 0 < lf.compN2 then
    haveI : NeZero lf.compN1 := ⟨h.1.ne'⟩
    haveI : NeZero lf.compN2 := ⟨h.2.ne'⟩
    let noise : Box lf.compN1 lf.compN2 1 → ℝ := lfNoise g pos
    let pos := pos + lf.compN1 * lf.compN2
    let u1full := boxMat (lfFull lf noise 0)
    let u2full := boxMat (lfFull lf noise 1)
    let lf := { lf with full := some (u1full, u2full) }
    match extractPortion lf.userN1 lf.userN2 u1full with
    | .error e => (.error e, (lf, pos))
    | .ok u1 =>
      match extractPortion lf.userN1 lf.userN2 u2full with
      | .error e => (.error e, (lf, pos))
      | .ok u2 => (.ok (u1, u2), ({ lf with u := some (u1, u2) }, pos))
  else
    -- the transform of an empty array raises
    (.error .valueError, (lf, pos + lf.compN1 * lf.compN2))

/-! ### Interpolation -/

/-- Index of the interval of the ascending grid `xs` that contains `x`
(`scipy.interpolate._rgi_cython.find_interval_ascending`): the last `i <= len - 2` with `xs[i] <= x`. -/
def findInterval (xs : List ℝ) (x : ℝ) : ℕ := min (xs.countP (fun t => decide (t ≤ x)) - 1) (xs.length - 2)

/-- Position within the interval, between 0 and 1. -/
def normDist (xs : List ℝ) (x : ℝ) : ℝ :=
  let i := findInterval xs x
  (x - xs.getD i 0) / (xs.getD (i + 1) 0 - xs.getD i 0)

/-- `RegularGridInterpolator(method="linear", bounds_error=False, fill_value=0)` at one point (ascending grids; along an
axis of length one scipy uses the only node). -/
def interpAt (xs ys : List ℝ) (m : Mat) (x y : ℝ) : ℝ :=
  if x < xs.headD 0 ∨ xs.getLastD 0 < x ∨ y < ys.headD 0 ∨ ys.getLastD 0 < y then 0
  else
    let i := findInterval xs x
    let j := findInterval ys y
    let s := normDist xs x
    let t := normDist ys y
    (1 - s) * (1 - t) * m.entry i j + (1 - s) * t * m.entry i (j + 1) + s * (1 - t) * m.entry (i + 1) j +
      s * t * m.entry (i + 1) (j + 1)

/-- `interp_slice`, L527-597. -/
def LowFreq.interpSlice (lf : LowFreq) (xt yt : List ℝ) : Except PyErr (Mat × Mat) :=
  match lf.u with
  | none => throw PyErr.runtimeError
  | some (u1, u2) =>
    let xs := lfCoords lf.userL1 lf.userN1
    let ys := lfCoords lf.userL2 lf.userN2
    let on := fun (m : Mat) => xt.map fun x => yt.map fun y => interpAt xs ys m x y
    pure (on u1, on u2)

/-! ### Spectra -/

/-- The unique positive wavenumbers, L709-711: `np.unique(np.abs(k1_fft))` cut at `k_tol` and sorted. -/
def k1Pos (n1 : ℕ) [NeZero n1] (dx kTol : ℝ) : List ℝ :=
  ((Finset.univ.image fun j : ZMod n1 => |lfFreq n1 dx j|).filter fun k => kTol < k).sort (· ≤ ·)

/-- `_compute_spectrum_numba_helper`, L602-662, for one of the two power arrays and one wavenumber. -/
def spectrumAt {n1 n2 : ℕ} [NeZero n1] [NeZero n2] (power : Box n1 n2 1 → ℝ) (dx scaling kTol k1val : ℝ) : ℝ :=
  (∑ k : Box n1 n2 1, if |lfFreq n1 dx k.1 - k1val| < kTol then power k else 0) * scaling

/-- `compute_spectrum`, L664-741. -/
def LowFreq.computeSpectrum (lf : LowFreq) (kTol : ℝ) : Except PyErr (List ℝ × List ℝ × List ℝ) :=
  match lf.u with
  | none => throw PyErr.runtimeError
  | some (u1, u2) =>
    if h : 0 < lf.userN1 ∧ 0 < lf.userN2 then
      haveI : NeZero lf.userN1 := ⟨h.1.ne'⟩
      haveI : NeZero lf.userN2 := ⟨h.2.ne'⟩
      let hat := fun (m : Mat) => fftn (fun x : Box lf.userN1 lf.userN2 1 => (m.entry x.1.val x.2.1.val : ℂ))
      let power := fun (m : Mat) (k : Box lf.userN1 lf.userN2 1) => ‖hat m k‖ ^ 2
      let ks := k1Pos lf.userN1 lf.userDx kTol
      let scaling := lf.userL1 / (((lf.userN1 : ℝ) * lf.userN2) ^ 2 * (2 * Real.pi))
      pure (ks, ks.map (spectrumAt (power u1) lf.userDx scaling kTol), ks.map (spectrumAt (power u2) lf.userDx scaling kTol))
    else throw PyErr.valueError

/-- `_E_kappa`, L801-818. -/
def lfE (c L2d psi zi k1 k2 : ℝ) : ℝ :=
  let kappaSq := max (lfKappaSq psi k1 k2) 1e-24
  let kappa := Real.sqrt kappaSq
  let denominator := (1 / L2d ^ 2 + kappaSq) ^ (7 / 3 : ℝ) * (1 + kappaSq * zi ^ 2)
  if denominator < 1e-30 then 0 else c * kappa ^ 3 / denominator

/-- `_integrand11` and `_integrand22`, L820-846. -/
def lfIntegrand (c L2d psi zi : ℝ) (i : Fin 2) (k2 k1 : ℝ) : ℝ :=
  let kSq := k1 ^ 2 + k2 ^ 2
  if kSq < 1e-24 then 0
  else
    let k := Real.sqrt kSq
    let num := match i with
      | 0 => k2 ^ 2
      | 1 => k1 ^ 2
    lfE c L2d psi zi k1 k2 / (Real.pi * k) * (num / kSq)

/-- `analytical_spectrum`, L744-892, for one wavenumber (errors and warnings of the quadrature are left out). -/
def LowFreq.analyticalSpectrum (lf : LowFreq) (k2limit : ℝ) (i : Fin 2) (k1 : ℝ) : ℝ :=
  let a := |k2limit|
  if |k1| < 1e-15 then 0
  else ∫ k2 in (-a)..a, lfIntegrand lf.c lf.cfg.L2d lf.cfg.psi lf.cfg.zi i k2 k1

end
end Verif
