import Verif.Model.Sampling
import Verif.Model.LowFreq
import Verif.Model.Calibration

/-!
# Model of `fluctuation_generation/fluctuation_field_generator.py`

`FluctuationFieldGenerator` as an object with mutable attributes.  Every method returns its result or exception together with
the object afterwards, which keeps all changes made before an exception.  Printing and warnings are left out.

The random number generator is a stream of standard normal values together with the number of values consumed so far
(`RandomState.normal` hands out the same stream whatever the shapes requested).
-/

namespace Verif
open Fl

noncomputable section
open Classical

/-! ### Arrays of shape `(n1, n2, n3, 3)` -/

/-- `[f 0, ..., f (n-1)]`. -/
def tab {α : Type} (n : ℕ) (f : ℕ → α) : List α := (List.range n).map f

/-- One plane of constant first index. -/
abbrev Plane (α : Type) := List (List (Fin 3 → α))

/-- A numpy array of shape `(planes.length, n2, n3, 3)`; `n2` and `n3` are stored because they exist even if there is no
plane. -/
structure Arr (α : Type) where
  n2 : ℕ
  n3 : ℕ
  planes : List (Plane α)

/-- Array from a function of the indices. -/
def Arr.ofFn {α : Type} (n1 n2 n3 : ℕ) (f : ℕ → ℕ → ℕ → Fin 3 → α) : Arr α :=
  ⟨n2, n3, tab n1 fun a => tab n2 fun b => tab n3 fun c => f a b c⟩

/-- `x[a, b, c, i]`. -/
def Arr.entry (x : Arr ℝ) (a b c : ℕ) (i : Fin 3) : ℝ := (((x.planes.getD a []).getD b []).getD c fun _ => 0) i

/-- A slice object. -/
abbrev SliceArg := Option ℤ × Option ℤ

/-- `x[s1, s2, s3, :]`. -/
def Arr.slice {α : Type} (x : Arr α) (s1 s2 s3 : SliceArg) : Arr α :=
  ⟨(pySlice (List.range x.n2) s2.1 s2.2).length, (pySlice (List.range x.n3) s3.1 s3.2).length,
    (pySlice x.planes s1.1 s1.2).map fun p => (pySlice p s2.1 s2.2).map fun r => pySlice r s3.1 s3.2⟩

/-- All entries in C order. -/
def Arr.flat (x : Arr ℝ) : List ℝ := x.planes.flatMap fun p => p.flatMap fun r => r.flatMap fun v => [v 0, v 1, v 2]

/-- `np.any(x)`. -/
def Arr.any (x : Arr ℝ) : Prop := ∃ v ∈ x.flat, v ≠ 0

/-! ### The object -/

/-- A `FluctuationFieldGenerator`. -/
structure Gen where
  /-- `grid_dimensions` -/
  d1 : ℝ
  d2 : ℝ
  d3 : ℝ
  /-- `grid_levels` -/
  l1 : ℕ
  l2 : ℕ
  l3 : ℕ
  /-- `blend_num` -/
  bn : ℤ
  /-- `n_buffer`, `n_margin_y`, `n_margin_z` -/
  nb : ℤ
  my : ℤ
  mz : ℤ
  /-- `Covariance` -/
  kernel : GenKernel
  /-- `RF` -/
  rf : GRF
  /-- the stream of `RF.prng` and the number of values drawn from it -/
  gauss : ℕ → ℝ
  pos : ℕ
  /-- `noise` -/
  noise : Option (Arr ℝ)
  /-- `total_fluctuation` -/
  total : Arr Fl
  /-- `blend_region`; the outer `none` means that the attribute does not exist yet -/
  blend : Option (Option (Arr ℝ))
  /-- `low_freq_gen` -/
  low : Option LowFreq

/-- `Nx`, `Ny`, `Nz`, L171-176: `2**grid_levels + 1`. -/
def Gen.Nx (g : Gen) : ℕ := 2 ^ g.l1 + 1
def Gen.Ny (g : Gen) : ℕ := 2 ^ g.l2 + 1
def Gen.Nz (g : Gen) : ℕ := 2 ^ g.l3 + 1

/-- `self.blend_num - 1 if self.blend_num > 0 else 0`, L188. -/
def blendExt (bn : ℤ) : ℤ := if bn > 0 then bn - 1 else 0

/-- First three entries of `noise_shape`, L188-199. -/
def Gen.shape1 (g : Gen) : ℤ := g.Nx + (2 * g.nb + blendExt g.bn)
def Gen.shape2 (g : Gen) : ℤ := g.Ny + 2 * g.my
def Gen.shape3 (g : Gen) : ℤ := g.Nz + 2 * g.mz

/-- `RF.sample_noise((n1, n2, n3, 3))`, gaussian_random_fields.py L187-208: values are written in C order. -/
def Gen.sampleNoise (g : Gen) (n1 n2 n3 : ℕ) : Arr ℝ × Gen :=
  (Arr.ofFn n1 n2 n3 fun a b c i => g.gauss (g.pos + (((a * n2 + b) * n3 + c) * 3 + i.val)) * g.rf.noiseStd,
    { g with pos := g.pos + n1 * n2 * n3 * 3 })

/-- `RF.sample(noise)`, gaussian_random_fields.py L211-246 with the sampler `vf_fftw`, for an array of the shape for which
the sampler was built.  (All sizes are positive: the constructor raises otherwise.) -/
def Gen.sample (g : Gen) (noise : Arr ℝ) : Arr ℝ :=
  let n1 := g.shape1.toNat
  let n2 := g.shape2.toNat
  let n3 := g.shape3.toNat
  if h : 0 < n1 ∧ 0 < n2 ∧ 0 < n3 then
    haveI : NeZero n1 := ⟨h.1.ne'⟩
    haveI : NeZero n2 := ⟨h.2.1.ne'⟩
    haveI : NeZero n3 := ⟨h.2.2.ne'⟩
    let L1 := g.rf.L.getD 0 0
    let L2 := g.rf.L.getD 1 0
    let L3 := g.rf.L.getD 2 0
    let S : Box n1 n2 n3 → Matrix (Fin 3) (Fin 3) ℂ := spectrumOf g.kernel.eval L1 L2 L3
    let u := vfSample S (transformNorm L1 L2 L3) fun x i => noise.entry x.1.val x.2.1.val x.2.2.val i
    Arr.ofFn n1 n2 n3 fun a b c i => u (a, b, c) i
  else ⟨n2, n3, []⟩

/-- The noise of the next block, L269-273: fresh, or the old one rolled by `-Nx` along the first axis with the rows of
`new_part` overwritten (a slice of the wrong length cannot be assigned). -/
def Gen.nextNoise (g : Gen) : Except PyErr (Arr ℝ) × Gen :=
  match g.noise with
  | none =>
    let (x, g) := g.sampleNoise g.shape1.toNat g.shape2.toNat g.shape3.toNat
    (.ok x, g)
  | some old =>
    let rolled := old.planes.rotate g.Nx
    let (fresh, g) := g.sampleNoise g.Nx g.shape2.toNat g.shape3.toNat
    let start := sliceIdx rolled.length (2 * g.nb + max 0 (g.bn - 1))
    if rolled.length - start ≠ g.Nx then (.error .valueError, g)
    else (.ok { old with planes := rolled.take start ++ fresh.planes }, g)

/-- `_generate_block`, L261-285. -/
def Gen.generateBlock (g : Gen) : Except PyErr (Arr ℝ) × Gen :=
  match g.nextNoise with
  | (.error e, g) => (.error e, g)
  | (.ok noise, g) =>
    let g := { g with noise := some noise }
    let windBlock := g.sample noise
    -- `central_part`, L201-206
    let wind := windBlock.slice (some g.nb, some (-g.nb)) (some g.my, some (-g.my)) (some 0, some (-2 * g.mz))
    let g := { g with blend := some (if g.bn > 0 then
      some { wind with planes := pySlice wind.planes (some (-g.bn)) none } else none) }
    let wind := if g.bn > 1 then { wind with planes := pySlice wind.planes none (some (-(g.bn - 1))) } else wind
    (.ok wind, g)

/-- Arguments of `generate` besides the number of blocks. -/
structure ProfileArgs where
  zref : ℝ
  uref : ℝ
  z0 : ℝ
  ptype : String
  plexp : Option ℝ

/-- `log_law`, L586-589. -/
def logLaw (z z0 zref uref : ℝ) : Fl := fin uref * Fl.log (fin z / fin z0 + fin 1) / Fl.log (fin zref / fin z0)

/-- `power_law`, L591-594. -/
def powerLaw (z zref uref a : ℝ) : Fl := fin uref * Fl.pow (fin z / fin zref) a

/-- `z_space`, L352: `np.linspace(0, grid_dimensions[2], 2**grid_levels[2] + 1)`. -/
def Gen.zSpace (g : Gen) : List ℝ := tab g.Nz fun k : ℕ => (k : ℝ) * (g.d3 / (g.Nz - 1 : ℕ))

/-- `_normalize_block`, L337-368.  Comparison with `sd` cannot divide by zero since the block has a non-zero entry. -/
def Gen.normalizeBlock (g : Gen) (b : Arr ℝ) (p : ProfileArgs) : Except PyErr (Arr Fl) :=
  if ¬ b.any then .error .valueError else
  if p.ptype ∉ ["LOG", "PL"] then .error .valueError else
  if p.zref ≤ 0 ∨ p.uref ≤ 0 ∨ p.z0 ≤ 0 then .error .valueError else
  if p.ptype = "PL" ∧ p.plexp = none then .error .valueError else
  let sd := Real.sqrt ((b.flat.map fun x => x ^ 2).sum / b.flat.length)
  let profile := g.zSpace.map fun z =>
    if p.ptype = "LOG" then logLaw z p.z0 p.zref p.uref else powerLaw z p.zref p.uref (p.plexp.getD 0)
  -- assignment of an array with last axis `Nz` to one with last axis `n3`
  if b.n3 ≠ g.Nz then .error .valueError else
  .ok ⟨b.n2, b.n3, b.planes.map fun pl => pl.map fun row =>
    List.zipWith (fun (v : Fin 3 → ℝ) (u : Fl) i => fin (v i / sd) + if i = 0 then u else fin 0) row profile⟩

/-- `x_coords_block_target`, L447-451, for a block of `nx` planes. -/
def Gen.xTargets (g : Gen) (i nx : ℕ) : List ℝ :=
  let len := g.d1 * ((nx : ℝ) / g.Nx)
  let xStart := (i : ℝ) * g.d1
  let xEnd := xStart + len
  tab nx fun j : ℕ => xStart + (j : ℝ) * ((xEnd - xStart) / nx)

/-- `y_coords_centered_target`, L454-474. -/
def Gen.yTargets (g : Gen) (lf : LowFreq) : List ℝ :=
  let yStart := lf.userL2 / 2 - g.d2 / 2
  let yEnd := lf.userL2 / 2 + g.d2 / 2
  tab g.Ny fun j : ℕ => yStart + (j : ℝ) * ((yEnd - yStart) / g.Ny)

/-- Adding the interpolated two-dimensional field to block `i` of the current call, L439-496.  The shape check of L484-488
never fails (property C72); an array with another second axis cannot be added in place. -/
def Gen.addLow (g : Gen) (i : ℕ) (b : Arr Fl) : Except PyErr (Arr Fl) :=
  match g.low with
  | none => .ok b
  | some lf =>
    match lf.interpSlice (g.xTargets i b.planes.length) (g.yTargets lf) with
    | .error e => .error e
    | .ok (u1, u2) =>
      if b.n2 ≠ g.Ny then .error .valueError
      else .ok ⟨b.n2, b.n3,
        List.zipWith (fun (pl : Plane Fl) (r : List ℝ × List ℝ) =>
          List.zipWith (fun row (uv : ℝ × ℝ) => row.map fun v => ![v 0 + fin uv.1, v 1 + fin uv.2, v 2])
            pl (r.1.zip r.2)) b.planes (u1.zip u2)⟩

/-- Body of the block loop of `generate`, L426-500. -/
def Gen.blockStep (p : ProfileArgs) (i : ℕ) (g : Gen) : Except PyErr Unit × Gen :=
  match g.generateBlock with
  | (.error e, g) => (.error e, g)
  | (.ok b, g) =>
    match g.normalizeBlock b p with
    | .error e => (.error e, g)
    | .ok b =>
      match g.addLow i b with
      | .error e => (.error e, g)
      | .ok b =>
        if g.total.n2 ≠ b.n2 ∨ g.total.n3 ≠ b.n3 then (.error .valueError, g)
        else (.ok (), { g with total := { g.total with planes := g.total.planes ++ b.planes } })

/-- Blocks `i, i+1, ..., i+n-1`. -/
def Gen.loop (p : ProfileArgs) : ℕ → ℕ → Gen → Except PyErr Unit × Gen
  | 0, _, g => (.ok (), g)
  | n + 1, i, g =>
    match g.blockStep p i with
    | (.error e, g) => (.error e, g)
    | (.ok _, g) => Gen.loop p n (i + 1) g

/-- `generate`, L370-504 (a negative `num_blocks` behaves like 0). -/
def Gen.generate (p : ProfileArgs) (numBlocks : ℕ) (g : Gen) : Except PyErr (Arr Fl) × Gen :=
  match Gen.loop p numBlocks 0 g with
  | (.error e, g) => (.error e, g)
  | (.ok _, g) => (.ok g.total, g)

/-! ### Constructor -/

/-- Constructor arguments.  Dimensions and levels are arrays of length three with non-negative levels. -/
structure GenArgs where
  ustar : ℝ
  zref : ℝ
  d1 : ℝ
  d2 : ℝ
  d3 : ℝ
  l1 : ℕ
  l2 : ℕ
  l3 : ℕ
  model : String
  length : Option ℝ
  time : Option ℝ
  energy : Option ℝ
  path : Option String
  seed : Option ℕ
  bn : ℤ
  low : Option LFConfig

/-- What the constructor depends on besides its arguments: Gauss' hypergeometric function, the stream of a seeded
`RandomState`, the stream obtained from operating-system entropy, the state of numpy's global generator, the files, and the
random initial weights of a network. -/
structure GenEnv where
  hyp : ℝ → ℝ
  seeded : ℕ → ℕ → ℝ
  entropy : ℕ → ℝ
  glob : ℕ → ℝ
  globPos : ℕ
  fs : FS
  netSeed : NetSeed
  netNoise : List ℝ

/-- `ceil(a / b)` for a numpy quotient: `ceil(inf)` raises `OverflowError`, `ceil(nan)` raises `ValueError`. -/
def ceilDiv (a b : ℝ) : Except PyErr ℤ :=
  if b = 0 then (if a = 0 then .error .valueError else .error .overflowError) else .ok ⌈a / b⌉

/-- `reference_height ** (-2/3)` for a python float (a negative height gives a complex number, which is not modelled: the
real power of the model is used). -/
def heightPower (z : ℝ) : Except PyErr ℝ :=
  if z = 0 then .error .zeroDivisionError else .ok (z ^ (-2 / 3 : ℝ))

/-- The model-dependent part of the constructor, L125-164 and L228-239: kernel, length scale and time scale. -/
def genScales (env : GenEnv) (a : GenArgs) : Except PyErr (GenKernel × ℝ × ℝ) :=
  if a.model ∉ ["DRD", "VK", "Mann"] then .error .valueError
  else if a.model = "DRD" then
    match a.path with
    | none => .error .valueError
    | some f =>
      match loadModel env.hyp env.netSeed env.netNoise f env.fs with
      | .error e => .error e
      | .ok ops =>
        let (L, T, M) := ops.expScalesValue
        let M := 4 * Real.pi * L ^ (-5 / 3 : ℝ) * M
        match heightPower a.zref with
        | .error e => .error e
        | .ok hp =>
          let E0 := M * a.ustar ^ 2 * hp
          let L := L * a.zref
          match ops.kind with
          -- `OPS.tauNet` is read when the spectrum is computed; the exceptions of the lines in between come first in the
          -- code (only the class of the exception can differ from the model, and only if both occur)
          | .taunet net => .ok (.nn net L E0 T a.zref, L, T)
          | _ => .error .attributeError
  else
    match a.length, a.time, a.energy with
    | some L, some T, some e =>
      match heightPower a.zref with
      | .error err => .error err
      | .ok hp =>
        let E0 := e * a.ustar ^ 2 * hp
        .ok (if a.model = "VK" then .vk L E0 else .mann env.hyp L E0 T, L, T)
    | _, _, _ => .error .assertionError

/-- `__init__`, L125-259; the second component is the number of values drawn from numpy's global generator afterwards.
A noise shape with a non-positive entry cannot be sampled. -/
def genInit (env : GenEnv) (a : GenArgs) : Except PyErr Gen × ℕ :=
  match genScales env a with
  | .error e => (.error e, env.globPos)
  | .ok (kernel, L, T) =>
    let Nx : ℕ := 2 ^ a.l1 + 1
    let Ny : ℕ := 2 ^ a.l2 + 1
    let Nz : ℕ := 2 ^ a.l3 + 1
    match ceilDiv (3 * T * L) (a.d1 / Nx), ceilDiv L (a.d2 / Ny), ceilDiv L (a.d3 / Nz) with
    | .error e, _, _ => (.error e, env.globPos)
    | .ok _, .error e, _ => (.error e, env.globPos)
    | .ok _, .ok _, .error e => (.error e, env.globPos)
    | .ok nb, .ok my, .ok mz =>
      let s1 : ℤ := Nx + (2 * nb + blendExt a.bn)
      let s2 : ℤ := Ny + 2 * my
      let s3 : ℤ := Nz + 2 * mz
      if s1 ≤ 0 ∨ s2 ≤ 0 ∨ s3 ≤ 0 then (.error .valueError, env.globPos)
      else
        match grfInit 3 (.array [a.l1, a.l2, a.l3]) (some (.array [s1.toNat, s2.toNat, s3.toNat])) [a.d1, a.d2, a.d3]
            .vfFftw with
        | .error e => (.error e, env.globPos)
        | .ok rf =>
          let gauss := match a.seed with
            | some s => env.seeded s
            | none => env.entropy
          let g : Gen := ⟨a.d1, a.d2, a.d3, a.l1, a.l2, a.l3, a.bn, nb, my, mz, kernel, rf, gauss, 0, none, ⟨Ny, Nz, []⟩,
            none, none⟩
          match a.low with
          | none => (.ok g, env.globPos)
          | some cfg =>
            match lfInit cfg with
            | .error e => (.error e, env.globPos)
            | .ok lf =>
              match lf.generate env.glob env.globPos with
              | (.error e, (_, pos)) => (.error e, pos)
              | (.ok _, (lf, pos)) => (.ok { g with low := some lf }, pos)

/-! ### Output -/

/-- What `save_to_vtk` hands to `imageToVTK`, L514-525: the cell spacing and, for each component, the array of values. -/
def Gen.vtk (g : Gen) : (ℝ × ℝ × ℝ) × (Fin 3 → List (List (List Fl))) :=
  ((g.d1 / (2 ^ g.l1 + 1), g.d2 / (2 ^ g.l2 + 1), g.d3 / (2 ^ g.l3 + 1)),
    fun i => g.total.planes.map fun p => p.map fun r => r.map fun v => v i)

/-- A numpy array with four axes. -/
structure Field4 where
  n1 : ℕ
  n2 : ℕ
  n3 : ℕ
  c : ℕ
  val : ℕ → ℕ → ℕ → ℕ → Fl

/-- `np.gradient(f, h)` along one axis of length `n` (second-order central differences, one-sided at the ends). -/
def npGradient (n : ℕ) (h : ℝ) (f : ℕ → Fl) (i : ℕ) : Fl :=
  if i = 0 then (f 1 - f 0) / fin h
  else if i + 1 = n then (f (n - 1) - f (n - 2)) / fin h
  else (f (i + 1) - f (i - 1)) / fin (2 * h)

/-- `evaluate_divergence`, L570-584, for an explicitly given field; `np.gradient` needs two points along each axis. -/
def evalDivergence (spacing : List ℝ) (f : Field4) : Except PyErr (ℕ → ℕ → ℕ → Fl) :=
  if spacing.length ≠ 3 then .error .valueError
  else if f.c ≠ 3 then .error .valueError
  else if f.n1 < 2 ∨ f.n2 < 2 ∨ f.n3 < 2 then .error .valueError
  else .ok fun a b c =>
    npGradient f.n1 (spacing.getD 0 0) (fun t => f.val t b c 0) a +
    npGradient f.n2 (spacing.getD 1 0) (fun t => f.val a t c 1) b +
    npGradient f.n3 (spacing.getD 2 0) (fun t => f.val a b t 2) c

/-- The default argument of `evaluate_divergence`. -/
def Gen.field4 (g : Gen) : Field4 :=
  ⟨g.total.planes.length, g.total.n2, g.total.n3, 3, fun a b c i =>
    if h : i < 3 then (((g.total.planes.getD a []).getD b []).getD c fun _ => fin 0) ⟨i, h⟩ else fin 0⟩

end
end Verif
