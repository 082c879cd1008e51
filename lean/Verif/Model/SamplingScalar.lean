import Verif.Model.Sampling

/-!
# Shapes of the arrays in `sampling_methods.py`, and the sine / cosine transform samplers

The covariance objects of the library return a spectrum of shape `(3, 3, n1, n2, n3)`.  Here only the shapes of the arrays
are tracked (numpy broadcasting rules), for every sampling method; then the values of the two trigonometric samplers for a
scalar spectrum.
-/

namespace Verif

/-- numpy broadcasting of two shapes written with the last axis first. -/
def bcastRev : List ℕ → List ℕ → Option (List ℕ)
  | [], t => some t
  | s, [] => some s
  | a :: s, b :: t =>
    match bcastRev s t with
    | none => none
    | some r => if a = b then some (a :: r) else if a = 1 then some (b :: r) else if b = 1 then some (a :: r) else none

/-- numpy broadcasting of two shapes (last axes aligned, sizes equal or one of them 1). -/
def bcast (s t : List ℕ) : Option (List ℕ) := (bcastRev s.reverse t.reverse).map List.reverse

/-- Leading axes of size 1 in excess of `m` axes are dropped on assignment. -/
def stripOnes (m : ℕ) : List ℕ → List ℕ
  | 1 :: l => if m ≤ l.length then stripOnes m l else 1 :: l
  | l => l

/-- `dst[:] = src` succeeds. -/
def canAssign (dst src : List ℕ) : Bool := bcast dst (stripOnes dst.length src) == some dst

/-- Shape of `y[DomainSlice]`; `some n` is `slice(0, n)`, `none` is `slice(None, None, None)`. -/
def sliceShape : List (Option ℕ) → List ℕ → Except PyErr (List ℕ)
  | [], l => .ok l
  | _ :: _, [] => .error .indexError
  | o :: os, d :: l =>
    match sliceShape os l with
    | .error e => .error e
    | .ok r => .ok ((match o with | some n => min n d | none => d) :: r)

/-- A loop that stops at the first error. -/
def loopErr (f : ℕ → Except PyErr Unit) (c : ℕ) : Except PyErr Unit :=
  (List.range c).foldl (fun r i => match r with | .error e => .error e | .ok _ => f i) (.ok ())

/-- Shape of `Covariance.precompute_Spectrum(Frequencies)`, covariance_kernels.py L104, L185; nn_covariance.py L110. -/
def spectrumShape (n1 n2 n3 : ℕ) : List ℕ := [3, 3, n1, n2, n3]

/-- `DomainSlice`, gaussian_random_fields.py L123, extended by `VectorGaussianRandomField` (L265-267). -/
def domainSlice (vector : Bool) (n1 n2 n3 : ℕ) : List (Option ℕ) :=
  [some n1, some n2, some n3] ++ (if vector then [none] else [])

/-- `Sampling_FFT.__call__` (L161-166), `Sampling_DST.__call__` (L180-185), `Sampling_DCT.__call__` (L199-204): the product
`Spectrum * noise` (the transforms keep the shape; those of DST and DCT act on the first `ndim` axes), then the slice. -/
def trigShape (vector : Bool) (n1 n2 n3 : ℕ) (noise : List ℕ) : Except PyErr (List ℕ) :=
  match bcast (spectrumShape n1 n2 n3) noise with
  | none => .error .valueError
  | some y => sliceShape (domainSlice vector n1 n2 n3) y

/-- `Sampling_FFTW.__call__`, L82-88: assignment to the real work array, in-place product of the half-complex work array
with `Spectrum_half`, slice of the work array. -/
def fftwShape (vector : Bool) (n1 n2 n3 : ℕ) (noise : List ℕ) : Except PyErr (List ℕ) :=
  if canAssign [n1, n2, n3] noise then
    if bcast [n1, n2, n3 / 2 + 1] [3, 3, n1, n2, n3 / 2 + 1] = some [n1, n2, n3 / 2 + 1] then
      sliceShape (domainSlice vector n1 n2 n3) [n1, n2, n3]
    else .error .valueError
  else .error .valueError

/-- `Sampling_VF_FFTW.__call__`, L137-149. -/
def vfShape (vector : Bool) (n1 n2 n3 : ℕ) (noise : List ℕ) : Except PyErr (List ℕ) :=
  match noise.getLast? with
  | none => .error .indexError
  | some c =>
    -- L140-143
    match loopErr (fun i => if canAssign [n1, n2, n3] noise.dropLast then
        (if i < 3 then .ok () else .error .indexError) else .error .valueError) c with
    | .error e => .error e
    | .ok _ =>
      -- L145-148
      match loopErr (fun _ => if canAssign noise.dropLast [n1, n2, n3] then .ok () else .error .valueError) c with
      | .error e => .error e
      | .ok _ => sliceShape (domainSlice vector n1 n2 n3) noise

/-- Shape of the array returned by `GaussianRandomField.sample(noise)` (`vector = false`) or
`VectorGaussianRandomField.sample(noise)` on a grid of `n1 x n2 x n3` points, gaussian_random_fields.py L209-243; without an
argument the noise has the shape of the grid (L203, L237). -/
def sampleShape (m : MethodName) (vector : Bool) (n1 n2 n3 : ℕ) (noise : Option (List ℕ)) : Except PyErr (List ℕ) :=
  let noise := match noise with | some s => s | none => [n1, n2, n3]
  match m with
  | .fft | .dst | .dct => trigShape vector n1 n2 n3 noise
  | .fftw => fftwShape vector n1 n2 n3 noise
  | .vfFftw => vfShape vector n1 n2 n3 noise
  | .other _ => .error .exception

/-! ### Values -/

noncomputable section

/-- Index set of an array of `n1 x n2 x n3` entries. -/
abbrev Grid3 (n1 n2 n3 : ℕ) := Fin n1 × Fin n2 × Fin n3

/-- Matrix of `scipy.fftpack.dst(type=1)`: `2 sin(pi (k+1)(n+1)/(N+1))`. -/
def dstMat (N : ℕ) (k n : Fin N) : ℝ := 2 * Real.sin (Real.pi * ((k + 1 : ℕ) * (n + 1 : ℕ)) / (N + 1 : ℕ))

/-- Matrix of `scipy.fftpack.dct(type=2)`: `2 cos(pi k (2n+1)/(2N))`. -/
def dctMat (N : ℕ) (k n : Fin N) : ℝ := 2 * Real.cos (Real.pi * ((k : ℕ) * (2 * n + 1 : ℕ)) / (2 * N : ℕ))

variable {n1 n2 n3 : ℕ}

/-- A transform with matrix `A` along axis 0, 1 or 2. -/
def axis0 (A : Fin n1 → Fin n1 → ℝ) (y : Grid3 n1 n2 n3 → ℝ) (k : Grid3 n1 n2 n3) : ℝ :=
  ∑ n, A k.1 n * y (n, k.2.1, k.2.2)
@[inherit_doc axis0]
def axis1 (A : Fin n2 → Fin n2 → ℝ) (y : Grid3 n1 n2 n3 → ℝ) (k : Grid3 n1 n2 n3) : ℝ :=
  ∑ n, A k.2.1 n * y (k.1, n, k.2.2)
@[inherit_doc axis0]
def axis2 (A : Fin n3 → Fin n3 → ℝ) (y : Grid3 n1 n2 n3 → ℝ) (k : Grid3 n1 n2 n3) : ℝ :=
  ∑ n, A k.2.2 n * y (k.1, k.2.1, n)

/-- `Sampling_DST.__call__`, sampling_methods.py L180-185, for a scalar field and a real scalar spectrum array. -/
def dstCall (S : Grid3 n1 n2 n3 → ℝ) (norm : ℝ) (noise : Grid3 n1 n2 n3 → ℝ) (x : Grid3 n1 n2 n3) : ℝ :=
  let y := fun k => S k * noise k
  let y := axis0 (dstMat n1) y
  let y := axis1 (dstMat n2) y
  let y := axis2 (dstMat n3) y
  y x / norm

/-- `Sampling_DCT.__call__`, sampling_methods.py L199-204, same simplification. -/
def dctCall (S : Grid3 n1 n2 n3 → ℝ) (norm : ℝ) (noise : Grid3 n1 n2 n3 → ℝ) (x : Grid3 n1 n2 n3) : ℝ :=
  let y := fun k => S k * noise k
  let y := axis0 (dctMat n1) y
  let y := axis1 (dctMat n2) y
  let y := axis2 (dctMat n3) y
  y x / norm

end
end Verif
