# Design of the DRDMannTurb verification model

Target: `/repo` (METHODS-Group/DRDMannTurb, python).  The repository is read as text only.
Model and proofs: Lean 4 (4.33.0) + Mathlib, Lake project in `lean/`.

## 1. Approach

Every modelled python function is transcribed into a total Lean function, branch by branch, with a
comment giving the file and the lines.  Exceptions are values (`Except PyErr`), object state that
survives an exception is modelled by `ExceptT PyErr (StateM σ)`-style functions
(`σ → Except PyErr α × σ`).  Specifications live in `Verif/Spec/*` and do not use the model's
helpers; property theorems live in `Verif/Props/*` and are named `Cxx_…` after the line of
`properties.jsonl` they establish.  Helper lemmas live in `Verif/Lemmas/*`.

Layout

| directory | contents |
|---|---|
| `Verif/Num` | number model `Fl` (NaN / ±inf / finite), python slices and errors |
| `Verif/Model` | transcription of the code |
| `Verif/Spec` | independent specifications (textbook tensor, windows, convexity, …) |
| `Verif/Lemmas` | helper lemmas |
| `Verif/Props` | property theorems and, beside each, a concrete instance of the hypotheses |

### Numbers

* Floating point is idealised: finite values are exact reals, rounding, overflow, underflow and
  float32/float64 differences are outside the model.  Exception: C136-C139, C145 and C146 round every operation
  (`Num/Round.lean`), for any format obeying the standard model of floating point (`Fmt`: relative error of each
  operation, sign symmetry, relative accuracy of `exp`, `log`, `pow`).  Overflow, underflow, subnormals and
  rounding inside the FFT stay outside, and that torch and numpy obey the standard model is assumed.
  C141 covers the FFT through an assumed relative accuracy of its output.  C143 (`Model/RoundedShear.lean`) rounds the
  Mann and DRD kernels, C144 (`Model/RoundedTensor.lean`) all fitted spectra, C148 (`Model/RoundedCoherence.lean`) the coherence, C149
  (`Model/RoundedLow.lean`) the low-frequency field, C150 and C151 (`Model/RoundedInterp.lean`) its interpolation and addition, C152
  (`Model/RoundedNet.lean`) the eddy lifetime network, C153 (`Model/RoundedSizes.lean`) buffer and margin sizes; `arctan2` and `hyp2f1` enter through their relative accuracy.
  C140 (`Model/RoundedKernel.lean`) allows overflow and underflow but assumes only that rounding is odd.
* Where the code relies on the special values (kernels at singular wavevectors + `nan_to_num`,
  `log` of zero targets in the loss, mean of an empty tensor, `0**negative`, division by zero in the
  log law) the model uses `Fl = nan | pinf | ninf | fin ℝ` with IEEE rules.  Zero is unsigned (read as `+0`).
  Consequence: the sign of `x/0` is that of `x`.  Theorems that depend on it say so.
* `nan_to_num` maps `±inf` to `±big` with `big` the largest double `(2-2^-52)*2^1023`.

### Abstracted ingredients

* `hyp2f1` : a function parameter `ℝ → ℝ` of the model.  Theorems that need only positivity assume it for that parameter;
  C89-C91, C94 and C95 assume that it is the hypergeometric function (`IsMannHyp`, `Verif/Spec/Hyp.lean`: analytic on the negative axis and
  equal to Mathlib's series near 0; such a function exists and is unique, and it is positive, `IsHyp2F1.mann_hyp_pos`).
* random generators: an arbitrary stream `ℕ → ℝ` determined by the seed; nothing about its distribution,
  except in C81, C82, C85, C87, C93, C95 and C97-C99, which quantify over the laws stated there (white noise; independent atomless
  values).  Independent normal values meet these hypotheses (`Verif/Lemmas/WhiteNoise.lean`).
* `scipy.integrate.quad` : exact integral.
* optimisers (`torch.optim`) : an arbitrary function from (state, closure) to new parameter vector, except in C109 (Adam) and
  C118 (LBFGS), where their update rules are written out.
* devices, matplotlib/plotly drawing (except what `imshow` shows at a point for given array, extent and limits: `Image.valueAt`, `Image.shade`), file formats (pickle, VTK) : not modelled;
* TensorBoard: `add_scalar` appends an event, `EventAccumulator` returns tags and values in order of writing; its limit of 10000
  events per tag, single-precision storage and delayed flushing of the file are not modelled;
  pickle is modelled as an identity on the object that is written.
* FFT : the exact DFT sum.

## 2. Trusted base

* Lean 4.33.0 kernel, Mathlib as installed.
* Axioms: every property theorem uses at most `propext`, `Classical.choice`, `Quot.sound`
  (checked with `#print axioms`; list in `AXIOMS.md`).  No axioms of our own, no `sorry`, no `native_decide`.
* `Gen.sample` reads kernel entries as reals (`Fl.toReal`); theorems about field values therefore presuppose the finiteness
  of the kernel, which is property C12.
* The transcription python → Lean, done by hand and cited line by line.
* The numpy/torch semantics used in the transcription (slicing, `roll`, `linspace`, `trapz`,
  `meshgrid`, `einsum`, `nan_to_num`, broadcasting), documented at the definitions in `Verif/Num`.
* Automatic differentiation (`Verif/Model/Autograd.lean`, `Verif/Model/Diagnostics.lean`): `detach`/`no_grad` make a value a
  constant (loss as a function of a recorded and a constant copy of the parameters); an engine ignores constant finite summands;
  `backward` on an unrecorded or non-scalar tensor raises `RuntimeError`; Adam uses gradients, not loss values.
* `torch.optim.Adam` (without amsgrad) and `CosineAnnealingLR` (recursive form, `eta_min = 0`) follow their documented update rules
  (`Model/Adam.lean`); gradients that are not finite are outside the model.
* `torch.optim.LBFGS` with `line_search_fn="strong_wolfe"` follows the rules of `torch/optim/lbfgs.py` (`Model/Lbfgs.lean`): defaults
  `tolerance_grad = 1e-7`, `tolerance_change = 1e-9`, `max_eval = max_iter * 5 // 4`, `c1 = 1e-4`, `c2 = 0.9`, `max_ls = 25`; exact reals;
  losses and gradients that are not finite are outside the model, a NaN step length is kept.
* Sharing of storage (`Model/Sharing.lean`, `Model/FieldSharing.lean`): `vector_to_parameters` makes the parameters views of the vector,
  optimisers update parameters in place, `torch.tensor` and `torch.cat` copy, `np.concatenate` makes a new array.

### Modelled code

`common.py` (all numerical functions), `nn_modules.py` (Rational, TauNet: constructor validation, forward),
`parameters.py` (defaults used, `DomainParameters.__post_init__`), `spectra_fitting/one_point_spectra.py`,
`spectra_fitting/loss_functions.py`, `spectra_fitting/data_generator.py`,
`spectra_fitting/calibration.py` (construction, parameter vector, calibrate control flow, coherence data,
schedulers, save, panel/data maps, coherence and lifetime figures of `plot`, diagnostics), all of `fluctuation_generation/` except the drawing calls
(the two generators passed to `recreate_fig2` are taken to be distinct objects).

### Not modelled

`spectra_fitting/eddy_lifetime.py` (abstract class
nobody instantiates), `CPU_Unpickler`, drawing code,
GPU placement, numba compilation (the python body is transcribed).

## 3. Per-property plan

"N" marks properties the code does not satisfy as a user would expect: there the theorem is the negation
with a witness and/or a `_partial` theorem for the part that does hold (section 4 collects them).

| id | what is modelled | how it is proved |
|---|---|---|
| C01 | the three spectrum functions over `Fl` | real-power algebra (`rpow_add`, `rpow_mul`), special values by evaluation |
| C02 | `Learnable_EnergySpectrum` | `Tendsto` of the ratio via continuity of `rpow` |
| C03 | Mann `beta` in generator, `MannEddyLifetime`∘`EddyLifetime` | power algebra, any `hyp2f1` |
| C04 | `EddyLifetime` | homogeneity of the norm |
| C05 N | `init_mann_approximation` + least squares line | closed form of regression on exact power laws; witness |
| C06 | TauNet with arbitrary layer list | `|−x| = |x|`, positivity of `rpow` |
| C07 | `Rational.forward` | limits of `(1+x^-2)^b`; the fixed exponent as an invariant of training sessions |
| C08 | TauNet constructor as `Except` | case analysis against a declarative validity predicate |
| C09 | bias-free ReLU MLP | induction over layers |
| C10 | VK kernel | `ring`/`field_simp` matrix algebra |
| C11 | Mann/NN kernel over `Fl` with `nan_to_num` | generic case by field algebra, singular cases by `Fl` evaluation |
| C12 | same | same, plus finiteness |
| C13 | all kernels | parity of each factor |
| C14 | kernel and `PowerSpectra` | algebraic identity in six components |
| C15 | `PowerSpectra` without floor | sum of squares through C14-style factorisation |
| C16 N | `NNCovariance`, loader rescaling, `EddyLifetime` | witness with zero weights; holds when LengthScale = 1 |
| C17 | grid construction | monotonicity of `10^x`, list lemmas |
| C18 | `PowerSpectra`, `quad23`, `forward` | trapezoid positivity |
| C19 N | same | pairing `k2 ↔ −k2` |
| C20 | OPS object as state machine | induction over call histories |
| C21 | PowerSpectra state update | induction on n |
| C22 | coherence computation over ℂ | triangle inequality for positive trapezoid weights |
| C23 N | cached grid | state-machine witness |
| C24 | `forward` over `Fl` | NaN propagation |
| C25 | scales | `exp (log x) = x`; `exp (log10 x) ≠ x`; every successful constructor call |
| C26 | VK data | derivative computation |
| C27 | VK data vs. tensor | polar coordinates / improper integral |
| C28 | Kaimal data | signs, limits |
| C29 N | data flattening + MSE over `Fl` | `log(x/0)` propagation |
| C30 | MSE | sums of squares |
| C31 | Pen1/Pen2 | sums of squares of relu |
| C32, C33 | `eval` as state-exception function | case analysis, induction over histories |
| C34 | EMA | induction |
| C35 | decision function | case analysis |
| C36 | loss scales | invariants |
| C37 | parameter vector layout | list split/append |
| C38 | constructor outcome | case analysis |
| C39 | training loop with arbitrary optimiser | induction on epochs |
| C40, C41 N | component maps, loss | evaluation for each layout, all tensors; the recorded loss is the misfit `Spec.misfit` at the data wavenumbers |
| C42 | save/load | record round trip, file map, frame (no other file changes) |
| C43 N | coherence file | list/array lemma, witness |
| C44 | index selection | `Nat` floor arithmetic |
| C45 | masked fill | list induction |
| C46, C47 | schedulers | case analysis |
| C48 | constructors | every branch raises |
| C49–C53 | generator state machine | invariants by induction over call histories |
| C54 | `_normalize_block` checks | case analysis |
| C55 | normalisation | `mean (x/rms)^2 = 1` |
| C56 | E0 dependence through sampler and normalisation | linearity of the sampler |
| C57 | profiles | monotonicity of log/rpow |
| C58 | low-frequency addition | pointwise |
| C59 | seed | equality of state machines; witness for dependence on global state |
| C60 | `np.gradient` based divergence | case analysis interior/edges |
| C61–C65 | DFT samplers | finite sums over `ZMod n`/`Fin n` |
| C66 | GRF constructor | case analysis |
| C67–C69 | low-frequency grid | ceil/parity arithmetic |
| C70 | spectral synthesis, also for the arrays an object keeps after `generate` (`C70_generated`) | algebra, DFT zero mode |
| C71 | `_compute_c` | integral as a parameter / exact integral |
| C72 | bilinear interpolation | convexity |
| C73, C74 | spectra estimators | sums of squares; evaluation at Nyquist |
| C75, C76 | plotting/VTK grids | index arithmetic |
| C77 | RDT solution behind the kernel | `HasDerivAt` of the closed form, uniqueness not claimed |
| C78 | kernels on the plane `k1 = 0` | `Fl` evaluation of the singular case |
| C79 | advice with a disabled term | consequence of the priority rule of C35 |
| C80 | calibrating on generated data | zero entry in the target => infinite loss => exception, induction over closures |
| C81 | covariance of the sampled field | real impulse response, bilinear expansion of the expectation, orthogonality of waves; even sizes by the Hermitian completion of the stored half spectrum; phases at physical positions |
| C82 | covariance of the low-frequency field, also for the arrays a user receives (`C82_generated_*`) | as C81, with the Hermitian part of the amplitudes (even grids) |
| C83 | `compute_spectrum` | Parseval on `ZMod n1 x ZMod n2`, pairing of opposite modes |
| C84 | amplitude versus analytical integrand | field algebra with the two formulas |
| C85 | random stream as a probability space | first value of a block is a non-zero linear form in independent atomless values |
| C86 N | jobs of the low-frequency studies | shapes of both grids from C67, broadcasting rule of in-place addition, induction over realizations |
| C87 N | averaged fields of a job | linearity in the noise; the averaged noise is white with variance `1/R`; zero mean (C70) |
| C88 N | `plot_spectra_comparison` | first two wavenumbers of the returned list, energy balance C83, mean mode on the line `k1 = 0` |
| C89 | `MannEddyLifetime`, `VKEnergySpectrum`, `EddyLifetime` | series ⇒ first-order ODE ⇒ continued by analyticity ⇒ improper integral |
| C90 | `MannEddyLifetime` | ODE bounds, monotonicity of `x^(1/3) hyp(-x)`, limits |
| C91 | `init_mann_approximation` | regression slope lies between secant slopes (covariance with a monotone function), limits |
| C92 N | shapes in `sampling_methods.py`, `sample` | numpy broadcasting on shape lists; loops stop at the first error |
| C93 N | `Sampling_DST`, `Sampling_DCT` with a scalar spectrum | discrete orthogonality by telescoping trigonometric sums, bilinear expansion |
| C94 N | `forward` on refined and enlarged grids | error of the trapezoid sum by the modulus of continuity; continuity of the sheared tensor (`arg` on the slit plane) and of every lifetime model |
| C95 N | line spectrum of the sampled field against the fitted spectra | Fourier series of the covariance (C81), double orthogonality; averages over transform wavenumbers are Riemann sums; kernel square roots (C10, C14), lifetimes of generator and fitter (C03, C16), refinement limit of the fitter (C94) |
| C96 N | `SpectralCoherence` on refined grids and at large separations | as C94 on the scaled grid; Riemann-Lebesgue; simultaneous recurrence of finitely many phases by compactness |
| C97 N | law of the sequence of blocks for a random stream | every value is a fixed combination of the window's places of the stream (C61), so block `j` of a stream is block 0 of the shifted stream and negating the stream negates the block; product measures; disjoint windows; strong law along residue classes |
| C98 N | continuation of one block by the next | circular convolution form of the sampler (C61); windows overlap by all but `Nx` planes (C51); second moments of combinations at distinct places |
| C99 N | Gaussian law and strict stationarity of the sampled field; non-normality of the returned blocks | linear image of independent normal values; translation (C61); a bounded normal value is constant, but blocks have mean square one (C55, C97) |
| C100 N | training, saving, loading and scale conversion of a DRD generator; its tensor against the dimensional fit | round trip (C42); `genScales` branch by branch; homogeneity of the textbook tensor in the wavevector; C14, C16, C95 |
| C101 N | the objective as an explicit formula of the tables | tables as lists of functions; finite differences and means entry by entry; C31–C35 |
| C102 N | continuity of spectra and objective in the parameters, attained minima, jump of the uw spectrum | combinators ContList/ContMat through layers, tensor and quadrature; the floor is continuous for rows other than uw, for uw a sign change of the integrand exists along log T (intermediate values) and the floor jumps there |
| C103 N | closure value independent of the history; recorded loss; self-consistency; dependence on the initial L | invariants ArchG along epochs (architecture plus frozen coherence grid); objective zero iff all residuals zero; C23's two grids for the dependence |
| C104 N | gradients: silent coherence data, Adam runs, detached MANN length scale | recorded loss as a function of two copies of the parameters (recorded, constant); coherence loss is a finite constant summand; non-constancy from the limit of steep spectra on the corner of the grid (cos = 0 there) against the cut-off tensor; MANN via C90 (kappa^(2/3) tau decreasing) |
| C105 N | `get_div`, `eval_grad`, `eval_trainable_norm` | field algebra on the sheared tensor; exceptions as values; sums of squares |
| C106 N | attributes read by `plot` and `print_calibrated_params`, lifetime figure | state machine over calls, induction over call lists; C104's non-constant coherence for the disproof; C90 for the displacement |
| C107 N | scaling and permutation symmetries of `TauNet`, unbounded level sets, balanced layers | positive homogeneity of ReLU by induction over the layers; the closure's value split into a part that sees the lifetime only and the regularisation term; exchange of a factor between two layers |
| C108 N | learning rate: closed form under the recursive cosine schedule, reductions | induction over epochs; half cosine wave sums by reflection; histories as lists of evaluations, C79 at every check |
| C109 N | Adam: reach of a fit, last step, weight decay at a perfect fit | second-moment inequality m^2 <= 53 v by induction, bias corrections, telescoping over epochs; Fermat at the zero of a non-negative loss |
| C110 N | Variance of the low-frequency model against sigma2, and of generated fields in the limit | polar coordinates and scaling of the radius; chord bound for the inverse square root; Riemann sums over growing grids by dominated convergence (`Lemmas/RiemannPlane.lean`) |
| C111 N | Expectation of the spectrum estimate, its bias from cropping, and its limit | covariance by Fourier sum; Parseval along the second axis; Fejér kernels; Riemann sums on the line (`Lemmas/RiemannLine.lean`) |
| C112 N | Averaged variances of the anisotropy, rectangular-domain and grid-size studies | variance of crops from the covariance of C111; realizations read disjoint windows of the stream; strong law over windows (`stream_average`) |
| C113 N | The numerical curves of `recreate_fig2` | the loop as a list of estimates at known positions; C111 and the strong law over windows |
| C114 N | Log of a fit and its figure | the evaluations of a returned fit as one list of calls (`calibrate_run`); series of a tag by induction over that list; order of tags from the fold |
| C115 N | `get_current_loss_info` | alignment of the histories (C33) and the moving averages (C34) |
| C116 | lateral mirror symmetry of the generated field | the kernels are pseudo-tensors under k2 → −k2 (the rapid-distortion coefficients are even, odd, even); the sampler then commutes with the reflection when the number of points across is odd; a reflection of the noise is a signed permutation of the random stream, which leaves its law unchanged |
| C117 | symmetries of the covariance of sampled fields | Fourier sum of the spectral tensor (C81) reindexed by reflections and by the symmetries of the cube |
| C118 | default optimiser: monotone objective, evaluation bound, descent directions, stationary points | invariants of bracketing and zoom (lower entry at most the start and the last trial); curvature positivity of the two-loop recursion; objective is one function (C103) |
| C119 | predictions at both ends of the wavenumber axis | explicit `O(1/k1²)` bound on the distorted tensor for bounded lifetimes, so the floor takes over at every node; node `(0,0)` contributes `E/(4π k1)` times its weight; the exact integral is bounded by a product of two `arsinh` integrals |
| C120 | picture of the low-frequency fields | arguments of `imshow` computed; pixel index by the floor of the scaled distance; minimum and maximum by induction on the flattened arrays; zero field from the vanishing transfer function |
| C121 | unit of length | kernels homogeneous under scaling of wavevectors (`GenKernel.eval_inUnit`), window noise by `√s³`, so blocks are proportional and the normalisation removes the factor; induction over the history (`run_proportional`) |
| C122 | continuity in the time scale, isotropic limit | the distorted kernel is continuous in the distortion at every wavevector (argument in the slit plane) and equals the isotropic one at zero; finite sums, positive deviation of the block; induction over the history (`run_near`); C85 for the almost sure version |
| C123 | reversed axes of the generated turbulence | spectral square roots are imaginary, so the response of the sampler is odd on every grid (point reversal); composed with the lateral pseudo-tensor of C116; for von Karman the root is a pseudo-tensor under every reversal and Hermitian on odd grids; reversing the window of a block is a signed permutation of the random stream |
| C124 | parameters set from a tensor or an array | state machine `Shared` (tensors of the caller, objects, ties); an invariant (tied tensors exist and have the number of parameters) is kept by every command, so the getter reads the tensor; arrays break the tie |
| C125 | the array returned by `generate` | heap of arrays `FieldSess` simulated by `Gen`; what a call appends is independent of the field it appends to (`generate_total`) |
| C126 | fitted spectra and the unit of length | homogeneity of the textbook tensor (distortion of degree 0, energy spectrum `t³`) gives `t⁵`; substitution in the integrals; diagonal entries are positive except `uu` at wavevectors along the wind, where the floor always acts and whose contribution is stated (`C126_grid`); on a fixed grid the node `(0,0)` alone gives growth `t²`, and for large units continuity of the tensor at `(k1,0,0)` puts every node below the floor |
| C127 | mean and covariances with a low-frequency model | returned wind = normalised block + profile + interpolated low-frequency value (almost surely, all histories); interpolation is a sub-convex combination with weights independent of the array; the low-frequency value is a finite combination of the global stream; independence kills cross terms; Cauchy–Schwarz and stationarity (C82) bound the variance; block averages (C97) plus Cesàro |
| C128 | momentum fluxes with a low-frequency model | reversing one wavenumber index keeps one component of the impulse response and changes the sign of the other (Nyquist entries vanish); reindexing the noise and shifting (C82) exchange rows or columns; interpolation weights are products, so antisymmetry survives interpolation; then C127_covariance |
| C129 | reseeding a generator | `Model/Reseed.lean` adds the command `reseed` (new stream, position 0, all else kept); every step of `generate` reads a number of values and is the same on any stream providing these values (`Blind`), which gives `C129_splice` by induction over programs; the windows of noise of C51 on the spliced stream give the mixed array, the loss of memory and the repetition; for independent streams the spliced one is again a stream of the same law (`C129_law`) |
| C130 | what `evaluate_divergence` shows on generated wind | `Model/FieldDivergence.lean` applies the model of `evaluate_divergence` (C60) to the accumulated field of the generator; the mean wind depends on height only, so central and one-sided differences along x cancel it except across the seam (`C130_profile`); with an odd x-size C62 gives a discrete solenoidal spectrum without Nyquist modes, so a block is a sum of plane waves orthogonal to their wavevectors (`vfSample_waves`), whose exact divergence vanishes and whose central differences differ from it by `sin x - x` (`waves_central_bound`); for `C130_nonzero` the reported value is an affine function of the noise with a non-zero coefficient (`boxDiv_ne`), and atomless independent noise avoids its zeros |
| C131 | the magnitude of a fit | the prediction is `k·∬ max(e^d Φ, 1e-12)`, so it lies between the scaled whole and the scaled part off the floor (`C131_growth`); near `d = 0` it is affine in `e^d` (`predicted_near`), which gives its logarithmic derivative `1 - share` and the first-order condition (`C131_unbiased`, Cauchy–Schwarz for the plain mean); triangle inequality for root mean squares gives `C131_parabola` and `C131_data`; `C131_negligible` bounds the shares at large magnitude |
| C132 N | two-point covariances in large boxes | covariance sum of C81 at any grid; Nyquist modes bounded by the edge of the band and counted, the rest a Riemann sum (`riemann_band`, dominated convergence with the `|k|^-2` bound of the kernels near the origin, `KernelBound`, joint continuity `TensorJoint`); growth of the lifetime at small wavevectors from C90 (Mann) and the rational factor (networks, `Spec.NetTame`); Riemann–Lebesgue for `C132_decay` |
| C133 N | the wind returned in large boxes | variance of a sum of squares of a Gaussian vector (`gaussian_sum_squares`), Parseval on the box and the size of the spectrum against the number of points (`gram_small`) give a mean square of the block that concentrates at a third of the trace limit of C132 (Chebyshev, `meanSquareLimit_of`); the window holds a fixed share of the periodic box; the trace is positive because one entry of the kernel vanishes only on a plane (`bandVariance_pos`); amplitude cancels (`bandCorrelation_scale`).  Convergence of the moments of the normalised blocks themselves (beyond the statement in probability) is not claimed |
| C134 N | refining the grid | the tensors decay like the power -11/3 of the wavenumber when the lifetime is bounded away from the origin (`sheared_tail`, `mann_far`, `net_far`), so they are integrable (`whole_of_band`); dominated convergence over the resolved wavevectors (`band_tendsto`); orthogonal change of variables for isotropy, scaling for similarity, Riemann-Lebesgue for the decay |
| C135 N | coherence generated and fitted | the cross spectrum of two lines is a discrete sum with phases (`C135_cross`), a Riemann sum of the cut-off Fourier integral (`crossLimit_of`), so the coherence converges (`coherenceLimit_of`); for equal spacings and a lateral separation the limit is the integral that `C96_refinement` shows the fitter to approach, up to the floor `1e-32` (`coherence_floor`). Odd transverse sizes are needed since even ones lose the Nyquist planes in the real part (C62); transverse boxes of the generator may be even |
| C136 N | rounding: energy spectra, von Karman kernel | `Num/Round.lean`: formats `Fmt` with relative rounding error, sign symmetry and accurate library functions (witness: binary formats `Fmt.binary p`); relative errors are tracked as logarithms (`LogNear`), which add under products, scale under powers and survive sums of non-negative terms. `Model/Rounded.lean` repeats the statements with every operation rounded |
| C137 N | rounding: vertical spectrum | `Phi33` has no cancellation except in `k3 + beta k1`, whose error is bounded by the length of the distorted wavevector times `1 + 3 beta` (`k0_near`); sums in any order through the relation `Summation`; then quadrature twice. uu and vv subtract nearly equal numbers and are in C144 |
| C138 N | rounding: normalisation, profiles | relative errors through the sum of squares, square root and division; the logarithm turns relative into absolute errors |
| C139 N | rounding: loss terms | l2 triangle inequality on lists of log ratios, relative errors through the sum and division |
| C140 N | kernels: exact symmetries | parity of every operation on `Fl` with an arbitrary odd rounding (overflow and underflow included); on the plane k1 = 0 zeta2 is NaN |
| C141 N | rounding: sampled field | transforms described by their accuracy (`Model/RoundedSampling.lean`); Parseval for the half spectrum (`irfftn_energy`, `fftn_energy`), Cauchy-Schwarz for the products, triangle inequalities |
| C142 N | opposite sides of a block | `C142_images` from the ceilings in `genInit`; `C142_fold`: second moments of a white stream (`white_moment`) depend on the displacement in `ZMod`; `C142_faces` specialises to the faces; `faces_witness` meets the hypotheses |
| C143 N | rounding: sheared kernels | errors relative to a scale (`Num/ScaleNear.lean`); scales of `C1`, `C2`, `zeta` compared with the last row of the kernel (`angle_ratio`, `s1_le`, `c2_ratio`), stability of the polar angle (`arctan_stable`), then `scale_le` compares everything with the Frobenius norm; `mann_hyp_near` for the lifetime; `C143_field` feeds the result into C141; `Props/RoundingExact.lean` shows that the rounded models of C136, C138, C143 and C146 are the exact ones in exact arithmetic |
| C144 N | rounding: all spectra | scales of the brackets of `PowerSpectra` compared with the trace of the tensor (`zP_le`, from `scale_le` of C143), then summation and quadrature of signed numbers (`Summation.scale`, `quad23Of_scale`); the signed floor of uw jumps, so its result is compared with a number within 3e-12 of the exact one (`fitFloorSigned_near`); `C144_exact` ties the rounded model to the exact one |
| C145 N | rounding: the generated wind | `WindRounded` composes noise scaling, sampler (`VfRounded`), crop, `SdOf`, division, profile; errors of `TransformNorm` and noise are absorbed (`VfRounded.norm_near`, `vf_noise`, by linearity and the gain of C141), the crop is injective (`crop_le`), normalisation via `C141_normalised` (`wind_error`); `wind_values` gives the exact values after any successful history; scalars (`period`, `freq`, `noiseStd`, `zSpace`) have relative errors. Mann and DRD: through the hypothesis on `Spectrum_half` (C143 bounds it for given frequencies) |
| C146 N | rounding: penalties and total loss | `Fmt.slopeOf`, `curvatureOf`, `Pen1Of`, `Pen2Of`, `CohOf`, `LossOf`; absolute errors through logs, differences and quotients (`Spec.rounded`, `NearRow`), relu is 1-Lipschitz; every term is a scaled mean of squares (`TermNear`), roots of sums by the triangle inequality (`sqrt_add_near`); exact value from `C101_value` |
| C147 N | rounding: Mann and DRD wind field | the kernel estimates of C143 at perturbed wavevectors (`ShearSetting` with `k'` and `t`), computed frequencies within `9e`, `shear_norm_le` for the norm of the exact kernel (scale `kapN`, `zeta` bounds), fed into `C145_generate`; `Props/RoundingWindExact.lean` has the exact case of C145, C147, C151 and the wind of C152 |
| C148 N | rounding: coherence | `CohFmt.CoherenceOf` (`Model/RoundedCoherence.lean`), density errors from `fitRaw_point` (shared with C144), phases by the Lipschitz bound of cosine and sine (`phase_near`), real and imaginary integral by `quad23Of_scale`, quotient `coh_quot`; `C148_exact` takes the bound at unit 0 |
| C149 N | rounding: low-frequency field | `LowFmt.lowInit`, `lowPhi`, `LowGenerate` (`Model/RoundedLow.lean`); relative errors of every entry of `phi_` by the `LogNear` calculus (`lowPhi_near`), the cutoffs shown to be out of reach on the grid (`lfFreq_sq_or`, `LowSizes.cut`), then Parseval (`low_error`). Equality of the grid sizes is a hypothesis because rounding can push `ceil(L/d)` over an integer; `C149_constructed` fails without a bound of the lengths because the tolerance 1e-9 of `_calculate_buffer_sizes` is absolute |
| C150 N | rounding: interpolation | `Fmt.linspaceOpen`, `xTarget`, `yTarget`, `interpWeight`, `InterpOf` (`Model/RoundedInterp.lean`); position = cell + weight (`grid_position`), so a change of cell is harmless because the bilinear interpolant is Lipschitz in the position (`bil_lipschitz`, `C150_lipschitz`); `Fmt.axis_near` bounds the position error. At the last node the part jumps to zero, hence the hypothesis that exact and computed point are both inside |
| C151 N | rounding: wind with low-frequency part | `Fmt.lowSum` (`Model/RoundedInterp.lean`); pathwise superposition (`C151_values`, both objects share blocks and random stream, `run_ok_of_low`), one more rounded addition per value and Minkowski's inequality (`rms_three_le`). `C151_generate` combines it with C145, `C151_part` with C150 |
| C152 N | rounding: eddy lifetime network | `Fmt.LinearOf`, `LayersOf`, `MlpOf`, `NormOf`, `rational`, `ShearFmt.NnBetaOf`, `Fmt.FitNetOf` (`Model/RoundedNet.lean`), relations because the order of the sums is free; the error of every layer is carried relative to `Spec.majorant` (`VecNear`, entrywise `ScaleNear`), the norm by the reverse triangle inequality (`VecNear.norm`); `rho` measures the cancellation and is bounded for ReLU networks by homogeneity (C09) and compactness of the sphere (`C152_uniform`). `C152_wind` and `C152_spectra` discharge the hypotheses on the lifetimes in `C147_shear` and `C144_spectra`. Outside: fused multiply-adds, activations with rounding of their own, a network in a coarser format than the wavenumbers |
| C153 N | rounding: buffer and margin sizes | `Fmt.bufferSize`, `Fmt.marginSize` (`Model/RoundedSizes.lean`); `LogNear` of the quotient, then the ceiling (`Spec.CeilNear`); `C153_jump` gives formats of arbitrarily small unit in which an integer quotient gains a plane. `L` and `T` are the values the constructor holds: their own rounding for DRD (`L *= reference_height`) is not included |

## 4. Disagreements found

Each entry names the theorem that establishes it (or says that the behaviour is only visible as a branch of the model).

### Fitting

* **C05** `MANN_APPROX` applies the physical scales twice: the regression is done on `T0 * lifetime(L0 * k)` and its result is
  used with `L * k` and multiplied by `T` again (`C05_double_scaling`, `C05_gamma_squared`, `C05_disproof`).
* **C16** the DRD generator evaluates the trained network at `h_ref * k`, the fit at `L * k`; the fields agree only when the
  trained length scale is 1 (`C16_disproof`, `C16_missing_length_scale`).
* **C19** the floor makes the uv and vw cospectra strictly positive although the exact integrals vanish
  (`C19_returned_positive`, `C19_exact_zero`).
* **C21** `PowerSpectra` divides `self.E0` in place, so a second call returns smaller values (`C21_not_idempotent`).
* **C23** the fallback coherence grid is computed from the length scale at the first call and kept
  (`C23_grid_frozen`, `C23_disproof`).
* **C25** a bare `OnePointSpectra` stores base-10 logarithms and exponentiates with base e (`C25_bare_scales`).
* **C29, C80** von Karman and Kaimal data contain zero columns; fitting with more components than are non-zero gives an
  infinite loss and `calibrate` raises (`C29_von_karman`, `C29_kaimal`, `C80_own_data`).
* **C32** for a negative reference height the evaluation can return NaN without raising (`C32_negative_height`).
* **C35** window 0 gives `ZeroDivisionError`, window 1 an `AssertionError` (`C35_small_windows`).
* **C38** `init_with_noise=True` can never succeed (`C38_noise`).
* **C39** a fixed spectrum (`use_learnable_spectrum=False`) with at least one epoch raises `AttributeError`
  (`C39_fixed_spectrum_raises`).
* **C41** with six components the panel map exchanges vw and uv for the stored data (`C41_stored_swapped`,
  `C41_stored_refuted`).
* **C42** the file name contains the eddy-lifetime type only, so two models of the same type overwrite each other
  (`C42_file_name`); integration parameters are not saved (`loadModel` uses the defaults).
* **C43** a complete coherence file written frequency by frequency is transposed, an incomplete one with 1-based indices is
  shifted and loses its last separation, and one with a duplicated and a missing row passes for complete (`C43_refuted`).
* **C47** the adaptive scheduler is constant 1 because the history is never written (`C47_constant`).
* **C48** `DomainParameters` and `CustomDataLoader` can never be constructed (`C48_domain`, `C48_loader`, `C48_best_case`).
* **C79** a disabled loss term has mean zero, so the dominance ratio is always above the threshold
  (`C79_disabled_term_dominates`).
* **C94** the floor of `1e-12` is integrated over the whole domain: enlarging the domain makes the predicted auto-spectra grow
  without bound instead of converging (`C94_domain_diverges`).
* **C96** the phase integrals are trapezoid sums over a fixed grid, hence almost periodic in the separation: the returned
  coherence comes back to nearly 1 at arbitrarily large separations, where that of the tensor is nearly 0
  (`C96_far_separations`).
* **C102** the floor of the uw entry keeps its sign, so the predicted uw spectrum is not a continuous function of the time
  scale (`C102_cross_jump`); the jumps are of the size of the floor times the area (`C102_cross_near`).
* **C103** with coherence data the training objective depends on the length scale given at the start, through the frozen
  coherence grid of C23 (`C103_initial_length`).
* **C104** the coherence data have no influence on the gradients of a fit: the model coherence is computed under
  `torch.no_grad()` (calibration.py L553), so `gamma_coherence` only changes the reported loss, the stopping test and the
  learning-rate advice (`C104_coherence_silent`, `C104_not_the_gradient`, `C104_adam`).  The length scale inside the `MANN`
  lifetime is detached (common.py L109, `C104_mann_length`).
* The mean-square misfit is documented as `1/L` times a double sum; the code divides by the number of all entries
  (`C30_value` states the code's formula).
* `beta_reg > 0` with a model without network raises `AttributeError` (branch `Theta.scalar` of `regularization`).
* **C105** `get_div` reads an attribute that is never set; its documented order of the entries is not the order in which
  `PowerSpectra` returns them, and the floor spoils the result at `k2 = 0`.  `eval_grad` can never succeed: the forward pass runs
  under `no_grad` and the prediction is not a scalar (`C105_div_errors`, `C105_div_order`, `C105_eval_grad`).
* **C106** the coherence figure shows the model before the fit, not after it (`C106_coherence_drawn`, `C106_not_the_fit`); the
  lifetime figure scales the abscissa with the initial length scale (`C106_lifetime_displaced`); after a failed fit
  `print_calibrated_params` reports the previous one (`C106_printed`).
* **C108** without coherence data the learning rate is reduced at every check, because the zero coherence term makes the misfit
  dominant (`C108_always_reduced`); the window of the check counts loss evaluations, not epochs.
* **C109** with Adam the tolerance is tested on the loss before the step, and the weight decay moves the parameters away from a
  perfect fit by about one learning rate per step (`C109_one_step`, `C109_own_data`).
* **C118** with the default optimiser the loss reported by a fit is that of the last trial of the line search, not that of the
  parameters returned (`C118_uphill`); it is never smaller than the latter (`C118_fit`).
* **C119** the advertised extrapolation fails at both ends: for large `k1` the predictions are the floor times `k1`
  (`C119_high`), for small `k1` the ww prediction of the Mann model diverges on every fixed grid (`C119_low`) although the
  integral tends to zero (`C119_low_exact`).
* **C120** for unequal requested spacings the picture is stretched (`C120_stretched`, a consequence of C69); a zero field is
  drawn in the lowest colour instead of the middle one (`C120_zero`).
* **C121** the amplitude of the generated fluctuations does not follow the unit of velocity (`C121_velocity`): only the profile does.
* **C122** at time scales where `3 T L` is a whole number of cells the buffer grows by one plane and the field of slightly larger
  time scales is another one (the noise is laid out differently); continuity is stated with the hypothesis of equal buffers.
* **C123** the default `blend_num` (10) makes the number of noise planes even; the stored half of the spectrum at the Nyquist
  plane of the first axis is then not symmetric under a vertical reversal alone, so that part of the claim asks for an odd (or
  no) number of blended planes.  The law is that of single blocks: the blended planes lie behind the block in the window, so
  runs of blocks are not reversible as a whole.
* **C124** the setter copies arrays but not tensors, so a fit overwrites the tensor the caller passed in (`C124_fit`) and two objects
  set from one tensor can no longer be fitted independently (`C124_two`).

### Kernels and sampling

* **C62, C63, C70** on grids with an even number of points the Nyquist planes break Hermitian symmetry and incompressibility
  (`C62_nyquist_restriction`, `C63_even_not_real`, `C70_nyquist_refuted`).  The default `blend_num = 10` makes the first
  dimension even.
* **C64** the FFTW samplers are larger than the FFT sampler by `sqrt(N)` (`C64_fft_fftw`).
* **C66** an unknown sampling method is remembered although the call raises (`C66_unknown_method`); the scalar constructor
  uses `sqrt(h)` instead of `sqrt(h^3)` as noise level (`C66_scalar_noise`).
* **C78** on the plane `k1 = 0` `nan_to_num` removes the distortion, the limit is different (`C78_plane_k1_zero`,
  `C78_underestimates`).
* **C92** with the library's kernels only `vf_fftw` with explicit vector noise returns a field; the default method `fft` returns
  a five-dimensional array, `fftw` raises, and `VectorGaussianRandomField.sample()` without noise raises (`C92_only_vf`,
  `C92_scalar_field`, `C92_vector_default`).
* **C93** the sine and cosine transform samplers do not produce stationary fields (`C93_dst_not_stationary`,
  `C93_dct_white`).
* The MLP may map a non-zero wavevector to zero; the kernel is then not finite.  The finiteness theorem for the network
  kernel (`C12_nn_finite`) excludes this and `Gen.sample` presupposes finite entries (it uses `Fl.toReal`).

### Field generator

* **C50** with a vanishing length or time scale the constructor succeeds, but the buffer or margin is empty and every
  `generate` call for at least one block raises (`C50_zero_scale`).
* **C125** `generate` returns the field itself, not a copy: in-place changes by the caller (for instance subtracting the mean wind)
  are part of everything the object returns or writes later (`C125_edit_persists`).
* **C126** the predictions of `forward` are not physical quantities: the transverse grid and the floor are the same numbers in every
  unit of length, so at one physical state the converted ww prediction diverges for small and for large units (`C126_mann`).
* **C127** the low-frequency field restarts with every call of `generate`, so the long-run average over repeated calls of one block is not
  the mean wind profile (`C127_repeat_bias`); over the blocks of one call it is (`C127_long`).
* **C53** a call rejected because of its profile arguments has already consumed noise (`C53_rejected`).
* **C56** the generated field does not depend on the energy scale: the normalisation removes it (`C56_energy_invariant`).
* **C95** the sampled field before normalisation carries the factor `h1 h2 h3 / (2 pi)^3`, so its spectrum depends on the
  resolution (`C95_limit_mann`); only the normalisation to unit root mean square (C55, C56) removes it.
* **C98** consecutive blocks are divided by different gains and come from noise windows that differ in `Nx` planes; nothing is
  blended at the seam (`blend_region` is stored and never read), so the returned field jumps there (`C98_continuation`,
  `C98_returned`).
* **C99** normalising each block by its own root mean square makes the returned values bounded and therefore not Gaussian
  (`C99_blocks_not_gaussian`), although the sampled field is (`C99_windows`).
* **C100** the conversion `M = 4 pi L**(-5/3) * M` (fluctuation_field_generator.py L153) does not undo a factor of the fitter:
  `forward` multiplies by `L**(5/3)` itself and the kernel divides by `4 pi` as well, so the tensor of a generator made from a
  fit is `4 pi l^(-5/3)` times the dimensional tensor of the fit (`C100_tensor`, `C100_not_dimensional`); the blocks that
  `generate` returns do not show it because each is normalised (C56).
* **C57** the log law exceeds `uref` at `zref`; `zref = z0` divides by zero and `zref < z0` gives negative wind
  (`C57_log_degenerate`).
* **C52, C58, C59** the position along x restarts at 0 in every `generate` call, so with a low-frequency model two calls of
  one block are not one call of two blocks (`C52_low_frequency`: for every split some state of numpy's global generator
  gives different fields); the low-frequency field is drawn from numpy's global generator, not from the seed
  (`C59_low_frequency`: some other global state gives another field for the same seed).
* **C69** the returned low-frequency field covers the requested extent only if both spacings agree
  (`C69_extent_refuted`).
* **C72** points beyond the last node, including the last cell of the user domain, get the value 0 (`C72_outside`).
* **C73** the spectrum at the Nyquist wavenumber is returned as 0 (`C73_nyquist`).
* **C74** `analytical_spectrum` returns 0 at `k1 = 0` although the integral is positive (`C74_zero_wavenumber`).
* **C86** the studies accumulate into arrays of the computational grid although `generate` returns the user's grid; with the
  built-in domain of four length scales every mesh job raises and nothing is drawn, and the domain-size study loses all
  factors below 5 (`C86_mesh`, `C86_domain`).
* **C87** the studies average the fields before taking the variance, which divides it by the number of realizations
  (`C87_variance`).
* **C88** the variance printed from the one-sided spectrum lacks the factor 2 (`C88_half`, `C88_disagree`).
* **C110** `c` normalises the radial integral over `kappa`, not the field: the two variances add up to `sigma2` at 45 degrees only
  and to more at every other angle (`C110_requested`), although the class says that `c` normalises the field to variance
  `sigma2` and `anisotropy_study` prints the measured sum beside `Target sigma2`.  (The formula for `kappa` in the class
  docstring has the factor 2 on the first term only; the code has it on both.)
* **C112** the averages printed beside `Target sigma2` are low by the variance of the spatial mean of the cropped field
  (`C112_realization`); `anisotropy_study` with one angle raises `TypeError` after all realizations are done, because
  `plt.subplots(1, 2)` returns a one-dimensional array (`C112_edge`).
* **C114** `plot_loss_logs` cuts the first value off twice, and the series start at different evaluations, so panels that share
  an axis are shifted against each other (`C114_misaligned`); with the misfit as only tag it raises `TypeError`
  (`C114_figure`); a failing evaluation leaves a NaN in the log that no history has (`C114_failed_trace`).
* **C129** `reseed` keeps the noise array, so blocks after `reseed(s)` are not those of an object with seed `s`, although its
  docstring only says that it sets a new seed (`C129_mixed`); reseeding with the seed of the constructor repeats turbulence that was
  already returned once the array has been replaced (`C129_repeat`).
* **C130** The examples call the field divergence-free "within a reasonable tolerance" on the strength of `evaluate_divergence`;
  the method reports a non-zero value at every inner point almost surely even where the underlying field has no divergence
  (`C130_nonzero`), and changes of the profile between calls add a jump at the seam (`C130_profile`). `C130_interior` needs a
  `blend_num` that is odd or not positive; the default 10 gives an even x-size and a Nyquist mode that is not solenoidal (C62).
* **C75** with `reshape=False` the plots show slices along the wrong axis (`C75_reshape_false`).
* **C76** the mean profile is evaluated on a grid with spacing `dim/(N-1)`, the VTK file uses `dim/N`
  (`C76_profile_nodes`, `C76_vtk`).
