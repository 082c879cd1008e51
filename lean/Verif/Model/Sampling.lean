import Verif.Model.Kernels
import Mathlib.Analysis.SpecialFunctions.Complex.CircleAddChar

/-!
# Model of `fluctuation_generation/sampling_methods.py` and `gaussian_random_fields.py`

Arrays over a grid of `n1 x n2 x n3` points are functions on `ZMod n1 x ZMod n2 x ZMod n3` (array indices are residues,
negative indices wrap).  Single precision (`float32`, `complex64`) is replaced by exact arithmetic.
-/

namespace Verif
open Fl

noncomputable section

/-- Index set of a three-dimensional array. -/
abbrev Box (n1 n2 n3 : ℕ) := ZMod n1 × ZMod n2 × ZMod n3

section
variable {n1 n2 n3 : ℕ} [NeZero n1] [NeZero n2] [NeZero n3]

/-- `exp(2 pi i (k1 x1 / n1 + k2 x2 / n2 + k3 x3 / n3))`, the factor of the transforms; `ZMod.stdAddChar j` is
`exp(2 pi i j / n)`. -/
def wave (k x : Box n1 n2 n3) : ℂ :=
  ZMod.stdAddChar (k.1 * x.1) * ZMod.stdAddChar (k.2.1 * x.2.1) * ZMod.stdAddChar (k.2.2 * x.2.2)

/-- Number of voxels, `Nd.prod()` (gaussian_random_fields.py L122; sampling_methods.py L79). -/
def voxels (n1 n2 n3 : ℕ) : ℕ := n1 * n2 * n3

/-- `scipy.fftpack.fftn` / an FFTW forward plan. -/
def fftn (f : Box n1 n2 n3 → ℂ) (k : Box n1 n2 n3) : ℂ := ∑ x, f x * wave (-k) x

/-- `scipy.fftpack.ifftn` (normalised inverse transform). -/
def ifftn (F : Box n1 n2 n3 → ℂ) (x : Box n1 n2 n3) : ℂ := (1 / (voxels n1 n2 n3 : ℂ)) * ∑ k, F k * wave k x

/-- Weight of a stored mode in the complex-to-real transform: the modes with index `0 < k3 < n3/2` stand for themselves
and their conjugates, the planes `k3 = 0` and `k3 = n3/2` are complete. -/
def c2rWeight (k : Box n1 n2 n3) : ℝ := if k.2.2.val = 0 ∨ 2 * k.2.2.val = n3 then 1 else 2

/-- A normalised FFTW complex-to-real inverse plan (`pyfftw` divides by the number of voxels): complex transforms along the
first two axes and, along the last, the half-complex transform, which reads only the indices `0 .. n3/2` and ignores the
imaginary part of the first and (for even `n3`) the last of them. -/
def irfftn (Y : Box n1 n2 n3 → ℂ) (x : Box n1 n2 n3) : ℝ :=
  (1 / (voxels n1 n2 n3 : ℝ)) * ∑ k, if k.2.2.val ≤ n3 / 2 then c2rWeight k * (Y k * wave k x).re else 0

/-- `n * fftfreq(n)`: indices below `n/2` are their own frequency, the others are negative; for even `n` the index `n/2` has
frequency `-n/2` (sampling_methods.py L52). -/
def fftIdx (n : ℕ) (j : ZMod n) : ℤ := if 2 * j.val < n then (j.val : ℤ) else (j.val : ℤ) - n

/-- The wavevector of an index: `(2 pi / L_j) (N_j fftfreq(N_j))`, sampling_methods.py L52; `meshgrid` with `indexing="ij"`
in the kernels. -/
def freqOf (L1 L2 L3 : ℝ) (k : Box n1 n2 n3) : K3 :=
  ⟨2 * Real.pi / L1 * fftIdx n1 k.1, 2 * Real.pi / L2 * fftIdx n2 k.2.1, 2 * Real.pi / L3 * fftIdx n3 k.2.2⟩

/-- `RandomField.Covariance.precompute_Spectrum(self.Frequencies)`, sampling_methods.py L54, for a pointwise kernel. -/
def spectrumOf (kernel : K3 → Fin 3 → Fin 3 → Fl) (L1 L2 L3 : ℝ) (k : Box n1 n2 n3) : Matrix (Fin 3) (Fin 3) ℂ :=
  times1j (kernel (freqOf L1 L2 L3 k))

/-- `TransformNorm`, sampling_methods.py L53. -/
def transformNorm (L1 L2 L3 : ℝ) : ℝ := Real.sqrt (L1 * L2 * L3)

/-- `Spectrum_half`, sampling_methods.py L79, L136 (entries beyond `n3/2` do not exist in the code and are never read). -/
def spectrumHalf (S : Box n1 n2 n3 → Matrix (Fin 3) (Fin 3) ℂ) (k : Box n1 n2 n3) : Matrix (Fin 3) (Fin 3) ℂ :=
  fun i l => S k i l * (Real.sqrt (voxels n1 n2 n3) : ℂ)

/-- The work arrays of `Sampling_VF_FFTW` (L119-120, L137). -/
structure Buffers (n1 n2 n3 : ℕ) where
  fftX : Box n1 n2 n3 → ℝ
  fftY : Box n1 n2 n3 → ℂ
  hatNoise : Box n1 n2 n3 → Fin 3 → ℂ

/-- `fft_plan()`: transforms `fft_x` into `fft_y`; the flag `FFTW_DESTROY_INPUT` allows arbitrary garbage in `fft_x`. -/
def fftPlan (junk : Buffers n1 n2 n3 → Box n1 n2 n3 → ℝ) (b : Buffers n1 n2 n3) : Buffers n1 n2 n3 :=
  { b with fftY := fftn fun x => (b.fftX x : ℂ), fftX := junk b }

/-- `ifft_plan()`, destroying `fft_y`. -/
def ifftPlan (junk : Buffers n1 n2 n3 → Box n1 n2 n3 → ℂ) (b : Buffers n1 n2 n3) : Buffers n1 n2 n3 :=
  { b with fftX := irfftn b.fftY, fftY := junk b }

/-- `Sampling_VF_FFTW.__call__`, sampling_methods.py L139-150, with three components.  `DomainSlice` is the whole grid
(property C66). -/
def vfCall (S : Box n1 n2 n3 → Matrix (Fin 3) (Fin 3) ℂ) (norm : ℝ) (junkX : Buffers n1 n2 n3 → Box n1 n2 n3 → ℝ)
    (junkY : Buffers n1 n2 n3 → Box n1 n2 n3 → ℂ) (noise : Box n1 n2 n3 → Fin 3 → ℝ) (b : Buffers n1 n2 n3) :
    (Box n1 n2 n3 → Fin 3 → ℝ) × Buffers n1 n2 n3 :=
  -- L142-145
  let b := [0, 1, 2].foldl (fun (b : Buffers n1 n2 n3) (i : Fin 3) =>
    let b := { b with fftX := fun x => noise x i }
    let b := fftPlan junkX b
    { b with hatNoise := fun k => Function.update (b.hatNoise k) i (b.fftY k) }) b
  -- L146: einsum("kl...,...l->...k")
  let hat := b.hatNoise
  let b := { b with hatNoise := fun k i => ∑ l, spectrumHalf S k i l * hat k l }
  -- L147-150
  let r := [0, 1, 2].foldl (fun (r : (Box n1 n2 n3 → Fin 3 → ℝ) × Buffers n1 n2 n3) (i : Fin 3) =>
    let b := { r.2 with fftY := fun k => r.2.hatNoise k i }
    let b := ifftPlan junkY b
    (fun x => Function.update (r.1 x) i (b.fftX x), b)) (fun _ _ => 0, b)
  (fun x i => r.1 x i / norm, r.2)

/-- The sampled field as a function of the noise alone: the work arrays do not matter (property C65). -/
def vfSample (S : Box n1 n2 n3 → Matrix (Fin 3) (Fin 3) ℂ) (norm : ℝ) (noise : Box n1 n2 n3 → Fin 3 → ℝ) :
    Box n1 n2 n3 → Fin 3 → ℝ :=
  (vfCall S norm (fun b => b.fftX) (fun b => b.fftY) noise ⟨fun _ => 0, fun _ => 0, fun _ _ => 0⟩).1

/-- `Sampling_FFTW.__call__` for a scalar field and scalar spectrum, sampling_methods.py L82-88. -/
def fftwCall (S : Box n1 n2 n3 → ℂ) (norm : ℝ) (noise : Box n1 n2 n3 → ℝ) (x : Box n1 n2 n3) : ℝ :=
  irfftn (fun k => fftn (fun y => (noise y : ℂ)) k * (S k * (Real.sqrt (voxels n1 n2 n3) : ℂ))) x / norm

/-- The complex array whose real part `Sampling_FFT.__call__` returns, sampling_methods.py L161-165 (scalar case). -/
def fftField (S : Box n1 n2 n3 → ℂ) (noise : Box n1 n2 n3 → ℝ) (x : Box n1 n2 n3) : ℂ :=
  fftn (fun k => S k * ifftn (fun y => (noise y : ℂ)) k) x

/-- `Sampling_FFT.__call__`, sampling_methods.py L161-166 (scalar case). -/
def fftCall (S : Box n1 n2 n3 → ℂ) (norm : ℝ) (noise : Box n1 n2 n3 → ℝ) (x : Box n1 n2 n3) : ℝ :=
  (fftField S noise x).re / norm

end

/-- The covariance objects of the generator with their constructor arguments (covariance_kernels.py L60-92, L139-168;
nn_covariance.py L40-94; fluctuation_field_generator.py L222-239). -/
inductive GenKernel where
  | vk (L E0 : ℝ)
  | mann (hyp : ℝ → ℝ) (L E0 Gamma : ℝ)
  | nn (net : TauNet) (L E0 Gamma h_ref : ℝ)

/-- `precompute_Spectrum` of the covariance object, pointwise and without the factor `1j`. -/
def GenKernel.eval : GenKernel → K3 → Fin 3 → Fin 3 → Fl
  | .vk L E0 => vkKernel L E0
  | .mann hyp L E0 Gamma => mannKernel hyp L E0 Gamma
  | .nn net L E0 Gamma h => nnKernel net L E0 Gamma h

/-! ### `GaussianRandomField.__init__` -/

/-- `grid_level` or `grid_shape`: a number or a sequence. -/
inductive GridArg where
  | scalar (n : ℕ)
  | array (l : List ℕ)

/-- The methods of gaussian_random_fields.py L9-13 and any other string. -/
inductive MethodName where
  | fft | dst | dct | fftw | vfFftw
  | other (s : String)

/-- Attributes set by the constructor. -/
structure GRF where
  h : List ℝ
  gridShape : List ℕ
  L : List ℝ
  domainSlice : List (ℕ × ℕ)
  noiseStd : ℝ
  method : MethodName

/-- `setSamplingMethod`, L137-169 (the sampler object itself is modelled above; `self.method` is assigned first). -/
def setSamplingMethod (m : MethodName) (g : GRF) : Except PyErr Unit × GRF :=
  let g := { g with method := m }
  match m with
  | .other _ => (.error .exception, g)
  | _ => (.ok (), g)

/-- `GaussianRandomField.__init__`, gaussian_random_fields.py L98-135.  `shape = none` is the default `None`.  Sequences are
numpy arrays; a `grid_shape` cut to a length other than three does not broadcast against the three spacings (a length of one
would; not modelled). -/
def grfInit (ndim : ℕ) (level : GridArg) (shape : Option GridArg) (dims : List ℝ) (m : MethodName) : Except PyErr GRF := do
  let (h, gs, L, std) ← match level, shape with
    | .scalar l, some (.scalar s) =>
      let h : ℝ := 1 / 2 ^ l
      pure (List.replicate ndim h, List.replicate ndim s, List.replicate ndim (h * s), Real.sqrt h)
    | .scalar _, _ => throw PyErr.valueError
    | .array lv, shape =>
      if dims.length ≠ 3 then throw PyErr.assertionError
      if lv.length ≠ 3 then throw PyErr.assertionError
      let h := List.zipWith (fun (d : ℝ) (l : ℕ) => d / (2 ^ l + 1)) dims lv
      match shape with
      | some (.array s) =>
        let gs := s.take ndim
        if gs.length ≠ 3 then throw PyErr.valueError
        pure (h, gs, List.zipWith (fun (x : ℝ) (n : ℕ) => x * n) h gs, Real.sqrt h.prod)
      | _ => throw PyErr.typeError
  -- L123: `grid_shape[j] for j in range(ndim)`
  if gs.length < ndim then throw PyErr.indexError
  let g : GRF := ⟨h, gs, L, gs.map fun n => (0, 0 + n), std, m⟩
  match setSamplingMethod m g with
  | (.error e, _) => throw e
  | (.ok _, g) => pure g

end
end Verif
