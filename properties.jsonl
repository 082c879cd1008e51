{"id": "C01", "title": "The three energy-spectrum functions agree", "statement": "VKEnergySpectrum(x), VKLike_EnergySpectrum(x) and Learnable_EnergySpectrum(x, 4, 17/6) return the same value for every x > 0; at x = 0 VKEnergySpectrum returns 0 while VKLike_EnergySpectrum returns NaN.", "quantifier": "for every real kL > 0, and the single point kL = 0", "why_tests_cant": "the identity is over a continuum of inputs; tests sample a few wavenumbers", "anchors": ["drdmannturb/common.py::VKEnergySpectrum", "drdmannturb/common.py::VKLike_EnergySpectrum", "drdmannturb/common.py::Learnable_EnergySpectrum"]}
{"id": "C02", "title": "Learnable spectrum has the advertised low- and high-wavenumber slopes", "statement": "For any exponents p, q the learnable spectrum is positive for kL > 0, behaves as kL^p when kL -> 0+ and as kL^(p-2q) when kL -> infinity; with the default exponents the high-wavenumber slope is exactly -5/3.", "quantifier": "for all real p, q and all kL > 0 (limits at both ends)", "why_tests_cant": "an asymptotic slope is a limit statement, not observable at finitely many points", "anchors": ["drdmannturb/common.py::Learnable_EnergySpectrum", "drdmannturb/common.py::VKEnergySpectrum"]}
{"id": "C03", "title": "Fitter and generator use the same Mann eddy lifetime", "statement": "For every wavevector k != 0 and positive length scale, the shear exponent beta used when a Mann box is generated equals the eddy lifetime the one-point-spectra fitter evaluates with EddyLifetimeType.MANN at the same length and time scale.", "quantifier": "for all wavevectors k != 0, all L > 0, all Gamma, and any implementation of the hypergeometric function", "why_tests_cant": "two independently written formulas must coincide at every wavevector", "anchors": ["drdmannturb/fluctuation_generation/covariance_kernels.py::MannCovariance.precompute_Spectrum", "drdmannturb/common.py::MannEddyLifetime", "drdmannturb/spectra_fitting/one_point_spectra.py::OnePointSpectra.EddyLifetime"]}
{"id": "C04", "title": "Eddy lifetime depends only on the scaled wavevector", "statement": "For the CONST, TWOTHIRD, MANN and TAUNET eddy lifetimes, the value at wavevector k with length scale L and time scale T equals T times the value at L*k with unit scales; it is therefore unchanged when k is multiplied and L divided by the same positive factor.", "quantifier": "for every wavevector, every L > 0, T, every network weight assignment", "why_tests_cant": "needs all wavevectors and all weights simultaneously", "anchors": ["drdmannturb/spectra_fitting/one_point_spectra.py::OnePointSpectra.EddyLifetime", "drdmannturb/spectra_fitting/one_point_spectra.py::OnePointSpectra.exp_scales"]}
{"id": "C05", "title": "The MANN_APPROX eddy lifetime approximates the Mann lifetime it was fitted to", "statement": "If the Mann lifetime were exactly a power law A*x^p (the case the log-log regression represents exactly), the MANN_APPROX lifetime would equal the MANN lifetime at every wavevector.", "quantifier": "for every time scale, length scale, power law and wavevector", "why_tests_cant": "regression output is compared only visually; the identity must hold for all scales", "anchors": ["drdmannturb/spectra_fitting/one_point_spectra.py::OnePointSpectra.init_mann_approximation", "drdmannturb/spectra_fitting/one_point_spectra.py::OnePointSpectra.EddyLifetime", "drdmannturb/common.py::Mann_linear_exponential_approx"]}
{"id": "C06", "title": "TauNet is even in every wavevector component and non-negative", "statement": "For any weights, activations and nu, flipping the sign of any component of k leaves TauNet(k) unchanged, and TauNet(k) is never negative; it is strictly positive whenever the augmented wavevector is non-zero.", "quantifier": "for all wavevectors, all layer counts and widths, all weights, all activation functions, all nu", "why_tests_cant": "tests can only sample networks and wavevectors", "anchors": ["drdmannturb/nn_modules.py::TauNet.forward", "drdmannturb/nn_modules.py::TauNet._mlp_forward", "drdmannturb/nn_modules.py::Rational.forward"]}
{"id": "C07", "title": "The rational kernel enforces the inertial-range slope -2/3", "statement": "For every nu, x^(2/3) * Rational_nu(x) tends to 1 as x -> infinity, and x^(2/3-nu) * Rational_nu(x) tends to 1 as x -> 0+: the inertial-range decay does not depend on the learned nu, the large-eddy slope is nu - 2/3. The same slopes hold for a ReLU TauNet along every ray on which the augmented wavevector does not vanish. With learn_nu=False the exponent of the network is -1/3 at construction and after any training session.", "quantifier": "for every real nu, limits at 0 and infinity", "why_tests_cant": "limit statements", "anchors": ["drdmannturb/nn_modules.py::Rational.forward"]}
{"id": "C08", "title": "TauNet construction accepts exactly the documented configurations and has the documented parameter count", "statement": "TauNet(n, sizes, activations) raises ValueError exactly when n <= 0, a width is <= 0, the width list length is not n, or the activation argument is not None/module/list of n modules; otherwise the number of trainable scalars is 3*h_1 + sum h_i*h_{i+1} + 3*h_n, plus 1 iff nu is learned.", "quantifier": "for all integers n, all width specifications, all activation specifications", "why_tests_cant": "validation order and count over unbounded configurations", "anchors": ["drdmannturb/nn_modules.py::TauNet.__init__", "drdmannturb/spectra_fitting/calibration.py::CalibrationProblem.num_trainable_params"]}
{"id": "C09", "title": "The eddy-lifetime MLP with ReLU is positively homogeneous", "statement": "With the default (bias-free, ReLU) network the augmented wavevector a(k) scales linearly: a(t*k) = t*a(k) for every t >= 0, so along every ray TauNet is the rational kernel of a fixed multiple of |k|.", "quantifier": "for all weights, depths, widths, wavevectors and t >= 0", "why_tests_cant": "universally quantified over network weights and inputs", "anchors": ["drdmannturb/nn_modules.py::TauNet._mlp_forward", "drdmannturb/nn_modules.py::TauNet.forward"]}
{"id": "C10", "title": "Von Karman kernel is incompressible and is a square root of the von Karman tensor", "statement": "For every wavevector the matrix G returned by the VK kernel satisfies k.G = 0 and G G* = E(|k|)/(4 pi |k|^4) (|k|^2 I - k k^T) with the von Karman energy spectrum E.", "quantifier": "for every wavevector k (the tensor identity for k != 0), every L > 0, every E0 >= 0", "why_tests_cant": "continuum of wavevectors", "anchors": ["drdmannturb/fluctuation_generation/covariance_kernels.py::VonKarmanCovariance.precompute_Spectrum"]}
{"id": "C11", "title": "Mann and neural-network kernels are incompressible at every grid wavevector", "statement": "The matrix G returned by the Mann and the DRD kernels satisfies k.G = 0 for every real wavevector, including k1 = 0, k1 = k2 = 0 and k = 0 where the formula divides by zero and the NaNs are replaced by numbers.", "quantifier": "for every wavevector in R^3, every eddy lifetime value beta (finite), every L > 0, E0 >= 0", "why_tests_cant": "singular wavevectors have measure zero and are exactly where NaN replacement acts", "anchors": ["drdmannturb/fluctuation_generation/covariance_kernels.py::MannCovariance.precompute_Spectrum", "drdmannturb/fluctuation_generation/nn_covariance.py::NNCovariance.precompute_Spectrum"]}
{"id": "C12", "title": "Kernel entries are finite everywhere and vanish at the zero wavevector", "statement": "For positive length scale and any finite eddy lifetime, every entry of the Mann/DRD kernel is a finite number at every wavevector, and the kernel is the zero matrix at k = 0, so the generated periodic field has zero mean.", "quantifier": "for every wavevector, every finite beta, every L > 0, E0 >= 0", "why_tests_cant": "division by zero only at singular wavevectors", "anchors": ["drdmannturb/fluctuation_generation/covariance_kernels.py::MannCovariance.precompute_Spectrum", "drdmannturb/fluctuation_generation/nn_covariance.py::NNCovariance.precompute_Spectrum"]}
{"id": "C13", "title": "Kernels have Hermitian symmetry", "statement": "For VK, Mann and DRD kernels G(-k) is the complex conjugate of G(k) for every k, so filtered real noise is real.", "quantifier": "for every wavevector and every even eddy lifetime function", "why_tests_cant": "continuum of wavevectors", "anchors": ["drdmannturb/fluctuation_generation/covariance_kernels.py::VonKarmanCovariance.precompute_Spectrum", "drdmannturb/fluctuation_generation/covariance_kernels.py::MannCovariance.precompute_Spectrum", "drdmannturb/fluctuation_generation/nn_covariance.py::NNCovariance.precompute_Spectrum"]}
{"id": "C14", "title": "Generator kernel squares to the fitter's spectral tensor", "statement": "For every wavevector with k1 != 0 and the same beta, L and amplitude, G G* of the Mann/DRD kernel equals, in all six components, the spectral tensor that the one-point-spectra fitter integrates (before its epsilon floor).", "quantifier": "for all wavevectors with k1 != 0, all beta, all L > 0, all amplitudes", "why_tests_cant": "two separately coded formulas in two modules must agree everywhere", "anchors": ["drdmannturb/fluctuation_generation/covariance_kernels.py::MannCovariance.precompute_Spectrum", "drdmannturb/spectra_fitting/one_point_spectra.py::OnePointSpectra.PowerSpectra", "drdmannturb/spectra_fitting/one_point_spectra.py::OnePointSpectra.forward"]}
{"id": "C15", "title": "The modelled spectral tensor is positive semidefinite", "statement": "For every wavevector with k1 != 0 and any beta, the 3x3 tensor assembled from the six returned components before the epsilon floor is positive semidefinite; in particular the auto-spectra are non-negative and |Phi13|^2 <= Phi11*Phi33.", "quantifier": "for all wavevectors with k1 != 0, all beta, all non-negative energies", "why_tests_cant": "continuum of inputs", "anchors": ["drdmannturb/spectra_fitting/one_point_spectra.py::OnePointSpectra.PowerSpectra", "drdmannturb/spectra_fitting/one_point_spectra.py::OnePointSpectra._PowerSpectra_coherence"]}
{"id": "C16", "title": "Generated DRD field uses the trained eddy lifetime at the trained scaling", "statement": "The eddy lifetime entering the DRD kernel at wavevector k (in 1/m) equals the trained model's EddyLifetime at the non-dimensional wavevector h_ref*k.", "quantifier": "for every trained network, every length scale, every wavevector", "why_tests_cant": "a missing scale factor is invisible unless the trained length scale differs from 1", "anchors": ["drdmannturb/fluctuation_generation/nn_covariance.py::NNCovariance.precompute_Spectrum", "drdmannturb/spectra_fitting/one_point_spectra.py::OnePointSpectra.EddyLifetime", "drdmannturb/fluctuation_generation/fluctuation_field_generator.py::FluctuationFieldGenerator.__init__"]}
{"id": "C17", "title": "Quadrature grid is symmetric, strictly increasing and contains zero", "statement": "For any ops_log_min < ops_log_max and N >= 2 (or N = 1), the k2/k3 integration grid has 2N+1 points, is strictly increasing, is antisymmetric about its midpoint, which is exactly 0.", "quantifier": "for all log bounds and all N", "why_tests_cant": "all N and all bounds", "anchors": ["drdmannturb/spectra_fitting/one_point_spectra.py::OnePointSpectra.__init__", "drdmannturb/parameters.py::IntegrationParameters"]}
{"id": "C18", "title": "Predicted auto-spectra are strictly positive", "statement": "For every k1 > 0, every choice of scales, eddy lifetime and weights for which the tensor is finite, the predicted k1*F11, k1*F22, k1*F33 are strictly positive (so the log in the loss is defined).", "quantifier": "for all k1 > 0, all integrands, all grids with N >= 1", "why_tests_cant": "universally quantified over parameters visited by the optimiser", "anchors": ["drdmannturb/spectra_fitting/one_point_spectra.py::OnePointSpectra.forward", "drdmannturb/spectra_fitting/one_point_spectra.py::OnePointSpectra.PowerSpectra", "drdmannturb/spectra_fitting/one_point_spectra.py::OnePointSpectra.quad23"]}
{"id": "C19", "title": "Predicted uv and vw cospectra", "statement": "By reflection symmetry in k2 the exact quadrature of Phi12 and Phi23 is 0; the values the model returns for these two components are instead strictly positive for every k1 > 0, because negative tensor entries are replaced by the positive floor 1e-12.", "quantifier": "for all k1 > 0, all parameters, all symmetric grids, all eddy lifetimes even in k2", "why_tests_cant": "a sign argument over every parameter value; tests see only one plot", "anchors": ["drdmannturb/spectra_fitting/one_point_spectra.py::OnePointSpectra.PowerSpectra", "drdmannturb/spectra_fitting/one_point_spectra.py::OnePointSpectra.forward", "drdmannturb/spectra_fitting/one_point_spectra.py::OnePointSpectra.quad23"]}
{"id": "C20", "title": "Evaluating the model is repeatable", "statement": "OnePointSpectra.forward(k1) returns the same values no matter which evaluations preceded it, as long as the learnable parameters are unchanged.", "quantifier": "for all call histories of forward / EddyLifetime / PowerSpectra / SpectralCoherence between two evaluations", "why_tests_cant": "quantifies over all call sequences", "anchors": ["drdmannturb/spectra_fitting/one_point_spectra.py::OnePointSpectra.forward", "drdmannturb/spectra_fitting/one_point_spectra.py::OnePointSpectra.PowerSpectra", "drdmannturb/spectra_fitting/one_point_spectra.py::OnePointSpectra.exp_scales"]}
{"id": "C21", "title": "PowerSpectra is not idempotent", "statement": "A second direct call of PowerSpectra() without an intervening forward() divides the stored energy by 4*pi again, so the n-th call's tensor (before the floor) is the first call's divided by (4*pi)^(n-1).", "quantifier": "for every n and every stored state", "why_tests_cant": "needs arbitrary repetition counts", "anchors": ["drdmannturb/spectra_fitting/one_point_spectra.py::OnePointSpectra.PowerSpectra"]}
{"id": "C22", "title": "Coherence is between 0 and 1", "statement": "For every separation r, every frequency k1 > 0 and component, the value returned by SpectralCoherence lies in [0,1], equals 1 at r = 0, and is the same for r and -r.", "quantifier": "for all separations, frequencies, parameters and grids (strictly increasing)", "why_tests_cant": "a triangle inequality over all integrands", "anchors": ["drdmannturb/spectra_fitting/one_point_spectra.py::OnePointSpectra.SpectralCoherence", "drdmannturb/spectra_fitting/one_point_spectra.py::OnePointSpectra._PowerSpectra_coherence", "drdmannturb/spectra_fitting/one_point_spectra.py::OnePointSpectra._quad23_coherence"]}
{"id": "C23", "title": "The coherence integration grid does not depend on history", "statement": "The value of SpectralCoherence depends only on the current parameters and the arguments, not on earlier calls.", "quantifier": "for all sequences of parameter updates and calls", "why_tests_cant": "history property: the fallback grid is frozen at the length scale of the first call", "anchors": ["drdmannturb/spectra_fitting/one_point_spectra.py::OnePointSpectra.SpectralCoherence"]}
{"id": "C24", "title": "Zero wavenumber is not a valid model input", "statement": "At k1 = 0 all auto- and cross-spectra returned by forward are NaN for every parameter value (no silent finite number), and a NaN row makes the loss raise ValueError.", "quantifier": "for all parameters and grids", "why_tests_cant": "every parameter value", "anchors": ["drdmannturb/spectra_fitting/one_point_spectra.py::OnePointSpectra.forward", "drdmannturb/spectra_fitting/one_point_spectra.py::OnePointSpectra.PowerSpectra", "drdmannturb/spectra_fitting/loss_functions.py::LossAggregator.MSE_term"]}
{"id": "C25", "title": "A constructed calibration problem starts at the physical scales it was given", "statement": "After CalibrationProblem construction with positive L, Gamma, sigma, exp_scales() returns exactly (L, Gamma, sigma); a bare OnePointSpectra object instead returns exp(log10 x), which differs from x unless x = 1.", "quantifier": "for all positive L, Gamma, sigma", "why_tests_cant": "log base mismatch is hidden for values near 1", "anchors": ["drdmannturb/spectra_fitting/calibration.py::CalibrationProblem.log_dimensional_scales", "drdmannturb/spectra_fitting/one_point_spectra.py::OnePointSpectra.__init__", "drdmannturb/spectra_fitting/one_point_spectra.py::OnePointSpectra.exp_scales"]}
{"id": "C26", "title": "Generated von Karman spectra are isotropic and diagonal", "statement": "generate_von_karman_spectra returns F22 = F33, zero off-diagonals, positive diagonal for k1 > 0, and satisfies the isotropy relation F22 = (F11 - k1 dF11/dk1)/2 (unweighted) at every k1.", "quantifier": "for all k1 > 0, all L > 0, all C > 0", "why_tests_cant": "derivative identity over a continuum", "anchors": ["drdmannturb/spectra_fitting/data_generator.py::generate_von_karman_spectra"]}
{"id": "C27", "title": "Generated von Karman data equal the integral of the von Karman tensor", "statement": "k1 times the double integral over k2,k3 of the VK spectral tensor component 11 (same tensor the generator squares) equals the uu data returned by generate_von_karman_spectra, for E0 = C.", "quantifier": "for all k1 > 0, L > 0, C > 0", "why_tests_cant": "an improper integral identity", "anchors": ["drdmannturb/spectra_fitting/data_generator.py::generate_von_karman_spectra", "drdmannturb/fluctuation_generation/covariance_kernels.py::VonKarmanCovariance.precompute_Spectrum"]}
{"id": "C28", "title": "Generated Kaimal spectra have the right signs, similarity and inertial slope", "statement": "generate_kaimal_spectra returns positive uu, vv, ww and negative uw for every k1 > 0, zero uv and vw, scales with ustar^2, depends on k1 and zref only through k1*zref, and k1^(2/3) times each diagonal component has a finite positive limit as k1 -> infinity.", "quantifier": "for all k1 > 0, zref > 0, ustar != 0", "why_tests_cant": "sign and limit over a continuum", "anchors": ["drdmannturb/spectra_fitting/data_generator.py::generate_kaimal_spectra"]}
{"id": "C29", "title": "Synthetic data sets are fit-able with the number of components requested", "statement": "When the target returned by the library's own generators contains an identically zero component among the first num_components rows (VK with 4 or 6, Kaimal with 6), the data-misfit loss is never a finite number, for every model prediction.", "quantifier": "for every prediction tensor, every k1 grid", "why_tests_cant": "every possible model output", "anchors": ["drdmannturb/spectra_fitting/data_generator.py::generate_von_karman_spectra", "drdmannturb/spectra_fitting/data_generator.py::generate_kaimal_spectra", "drdmannturb/spectra_fitting/loss_functions.py::LossAggregator.MSE_term", "drdmannturb/spectra_fitting/calibration.py::CalibrationProblem.calibrate"]}
{"id": "C30", "title": "Data misfit is a genuine distance on magnitudes", "statement": "For non-zero model and target values the MSE term is >= 0, is 0 exactly when |model| = |target| entrywise, is symmetric in model and target, and ignores signs.", "quantifier": "for all non-zero arrays of every shape", "why_tests_cant": "all arrays", "anchors": ["drdmannturb/spectra_fitting/loss_functions.py::LossAggregator.MSE_term"]}
{"id": "C31", "title": "Slope penalties vanish exactly on the intended curves", "statement": "With increasing k1 grid and positive zref: the first-order penalty is 0 iff every |component| is non-increasing along k1; the second-order penalty is 0 iff every component is log-log concave; both are >= 0 and unchanged by rescaling a component.", "quantifier": "for all grids (>= 2, resp. >= 3 points), all arrays without zeros, all positive coefficients", "why_tests_cant": "iff over all curves", "anchors": ["drdmannturb/spectra_fitting/loss_functions.py::LossAggregator.Pen1stOrder", "drdmannturb/spectra_fitting/loss_functions.py::LossAggregator.Pen2ndOrder"]}
{"id": "C32", "title": "Total loss is the sum of the enabled terms and never NaN", "statement": "LossAggregator.eval either raises or returns a value equal to MSE plus exactly those terms whose coefficient is positive (and whose inputs are supplied); with a reference height >= 0 the value is never NaN and is >= 0 (possibly infinite); with a negative reference height it can be NaN.", "quantifier": "for all inputs including zeros, infinities and NaNs, all coefficients", "why_tests_cant": "all special values and switch combinations", "anchors": ["drdmannturb/spectra_fitting/loss_functions.py::LossAggregator.eval", "drdmannturb/spectra_fitting/loss_functions.py::LossAggregator.MSE_term", "drdmannturb/spectra_fitting/loss_functions.py::LossAggregator.Pen1stOrder", "drdmannturb/spectra_fitting/loss_functions.py::LossAggregator.Pen2ndOrder", "drdmannturb/spectra_fitting/loss_functions.py::LossAggregator.Regularization", "drdmannturb/spectra_fitting/loss_functions.py::LossAggregator.CoherenceLoss"]}
{"id": "C33", "title": "Loss history stays aligned and a failed evaluation leaves no trace", "statement": "After any sequence of eval calls, some of which raise, the six recorded histories have equal length (the number of successful calls), total[i] is the sum of the other five at i, and a call that raises leaves histories and running averages unchanged.", "quantifier": "for all sequences of eval calls with arbitrary failures", "why_tests_cant": "all histories and crash points", "anchors": ["drdmannturb/spectra_fitting/loss_functions.py::LossAggregator.eval", "drdmannturb/spectra_fitting/loss_functions.py::LossAggregator.update_running_averages"]}
{"id": "C34", "title": "Running averages are the exponential moving average of the history", "statement": "After n >= 1 successful evaluations each running average equals 0.9^(n-1) v_1 + sum_{i=2..n} 0.1*0.9^(n-i) v_i and lies between the minimum and maximum recorded value.", "quantifier": "for all histories", "why_tests_cant": "all histories", "anchors": ["drdmannturb/spectra_fitting/loss_functions.py::LossAggregator.update_running_averages"]}
{"id": "C35", "title": "Learning-rate advice follows the documented priority", "statement": "should_adjust_learning_rate never recommends increasing the rate; it returns no adjustment before `window` epochs or with fewer than `window` recorded losses; otherwise stagnation, then instability, then dominance are checked in this order with factors 0.5, 0.3, 0.7.", "quantifier": "for all loss histories, epochs and windows >= 2", "why_tests_cant": "all histories", "anchors": ["drdmannturb/spectra_fitting/loss_functions.py::LossAggregator.should_adjust_learning_rate", "drdmannturb/spectra_fitting/loss_functions.py::LossAggregator.get_loss_diagnostics"]}
{"id": "C36", "title": "Loss-balancing factors are positive and bounded", "statement": "compute_loss_scales always returns factors in (0, 1e8], for any sequence of calls with non-negative losses, and between rebalancing epochs the factors do not change.", "quantifier": "for all call sequences with finite non-negative losses", "why_tests_cant": "all histories", "anchors": ["drdmannturb/spectra_fitting/loss_functions.py::LossAggregator.compute_loss_scales"]}
{"id": "C37", "title": "Parameter vector get/set round trip", "statement": "Setting `parameters` to a vector of the right length and reading it back returns the same vector; writing back what was read changes nothing; a vector of the wrong length raises ValueError and changes nothing; the first three entries are log L, log Gamma, log sigma (then p, q when learnable).", "quantifier": "for all architectures and vectors", "why_tests_cant": "all vectors and architectures", "anchors": ["drdmannturb/spectra_fitting/calibration.py::CalibrationProblem.parameters", "drdmannturb/spectra_fitting/calibration.py::CalibrationProblem.log_dimensional_scales"]}
{"id": "C38", "title": "Constructor outcome of CalibrationProblem", "statement": "Construction succeeds iff num_components is 3, 4 or 6, the three scales are positive, (for TAUNET) the network configuration is valid, and init_with_noise is False; with init_with_noise=True it never succeeds.", "quantifier": "for all parameter combinations", "why_tests_cant": "all combinations", "anchors": ["drdmannturb/spectra_fitting/calibration.py::CalibrationProblem.__init__", "drdmannturb/spectra_fitting/calibration.py::CalibrationProblem.initialize_parameters_with_noise", "drdmannturb/spectra_fitting/one_point_spectra.py::OnePointSpectra.__init__"]}
{"id": "C39", "title": "Training loop termination and outcome", "statement": "calibrate performs at most nepochs optimiser steps, stops early only if the current loss is below tol, and returns (exp of the first three parameters) only if every recorded epoch loss was finite; without a learnable spectrum and nepochs >= 1 it always raises AttributeError after the first step.", "quantifier": "for all optimisers (arbitrary parameter updates), loss sequences, tolerances and epoch counts", "why_tests_cant": "all optimiser behaviours", "anchors": ["drdmannturb/spectra_fitting/calibration.py::CalibrationProblem.calibrate"]}
{"id": "C40", "title": "Calibration compares each model component with the same data component", "statement": "In calibrate, row i of the target is the tensor entry that row i of the model prediction represents, for 3, 4 and 6 components and every data tensor. The loss recorded by the closure is the misfit between the first rows of the prediction at the data's own wavenumbers and those tensor entries. A single data tensor is used for every wavenumber; any other mismatch of the numbers of points raises RuntimeError.", "quantifier": "for all data tensors, num_components in {3,4,6}", "why_tests_cant": "index permutation over all tensors", "anchors": ["drdmannturb/spectra_fitting/calibration.py::CalibrationProblem.calibrate", "drdmannturb/spectra_fitting/one_point_spectra.py::OnePointSpectra.PowerSpectra"]}
{"id": "C41", "title": "The plot compares each model component with the same data component", "statement": "In plot, the data curve drawn in a panel is the tensor entry named by the panel, both for data passed as argument and for the data stored by calibrate.", "quantifier": "for all data tensors, both data sources, num_components in {3,4,6}", "why_tests_cant": "visual output, never asserted", "anchors": ["drdmannturb/spectra_fitting/calibration.py::CalibrationProblem.plot"]}
{"id": "C42", "title": "Saved model reloads to the same model", "statement": "Loading the file written by save_model rebuilds a calibration problem with identical parameter vector and scales; the file name depends only on the directory and the eddy-lifetime type, so a later save of the same type replaces the earlier one. A save writes that one file and no other; a failing save writes nothing.", "quantifier": "for all parameter vectors, configurations and save histories", "why_tests_cant": "all states", "anchors": ["drdmannturb/spectra_fitting/calibration.py::CalibrationProblem.save_model", "drdmannturb/fluctuation_generation/fluctuation_field_generator.py::FluctuationFieldGenerator.__init__"]}
{"id": "C43", "title": "Coherence file rows land at their (separation, frequency) indices", "statement": "After load_coherence_data, the stored coherence at (i,j) is the value of the file row with sep_idx i and freq_idx j.", "quantifier": "for all files (row orders, missing rows)", "why_tests_cant": "all row permutations", "anchors": ["drdmannturb/spectra_fitting/calibration.py::CalibrationProblem.load_coherence_data"]}
{"id": "C44", "title": "Separations selected for the coherence fit are valid and span the range", "statement": "The four selected separation indices are in range, non-decreasing, include the first and last separation, and are pairwise distinct exactly when at least four separations exist.", "quantifier": "for every number of separations >= 1", "why_tests_cant": "all n", "anchors": ["drdmannturb/spectra_fitting/calibration.py::CalibrationProblem.load_coherence_data"]}
{"id": "C45", "title": "Model coherence fill leaves low frequencies at one and others in place", "statement": "_compute_model_coherence returns arrays of full frequency length in which entries with frequency <= 1e-6 are 1 and the j-th remaining entry is the model value at that frequency's wavenumber.", "quantifier": "for all frequency arrays", "why_tests_cant": "all masks", "anchors": ["drdmannturb/spectra_fitting/calibration.py::CalibrationProblem._compute_model_coherence"]}
{"id": "C46", "title": "Three-phase schedule is positive, bounded and never increases", "statement": "The learning-rate factor of get_three_phase_scheduler is in [0.1, 2], and non-increasing in the epoch, for every total number of epochs.", "quantifier": "for all epochs and nepochs >= 1", "why_tests_cant": "all nepochs", "anchors": ["drdmannturb/spectra_fitting/calibration.py::CalibrationProblem.get_three_phase_scheduler"]}
{"id": "C47", "title": "Adaptive schedule", "statement": "The factor returned by get_adaptive_multi_scheduler is 1.0 unless at least ten loss records exist, and calibrate never creates such records, so in practice it is constantly 1.0 over any training run.", "quantifier": "for all training histories", "why_tests_cant": "all histories", "anchors": ["drdmannturb/spectra_fitting/calibration.py::CalibrationProblem.get_adaptive_multi_scheduler", "drdmannturb/spectra_fitting/calibration.py::CalibrationProblem.calibrate"]}
{"id": "C48", "title": "DomainParameters and CustomDataLoader construction", "statement": "Construction of DomainParameters and of CustomDataLoader never succeeds, whatever the arguments and file contents.", "quantifier": "for all arguments and file contents", "why_tests_cant": "a test can show one failure, not that every input fails", "anchors": ["drdmannturb/parameters.py::DomainParameters", "drdmannturb/spectra_fitting/data_generator.py::CustomDataLoader"]}
{"id": "C49", "title": "Every generated block has exactly the requested grid shape", "statement": "For positive length scale, time scale and grid dimensions, for every blend_num and every grid level, each block appended by generate has shape (2^lx+1, 2^ly+1, 2^lz+1, 3), and after any history of calls requesting n1,...,nm blocks the accumulated field has (n1+...+nm)*(2^lx+1) planes.", "quantifier": "for all levels, dimensions, scales, blend numbers (any integer) and call histories", "why_tests_cant": "all slices and histories", "anchors": ["drdmannturb/fluctuation_generation/fluctuation_field_generator.py::FluctuationFieldGenerator.__init__", "drdmannturb/fluctuation_generation/fluctuation_field_generator.py::FluctuationFieldGenerator._generate_block", "drdmannturb/fluctuation_generation/fluctuation_field_generator.py::FluctuationFieldGenerator.generate"]}
{"id": "C50", "title": "Zero buffer or margin makes generation impossible", "statement": "If the length scale or time scale is 0 (allowed by the constructor, e.g. an isotropic VK box with time_scale=0), every generate call with at least one block raises ValueError.", "quantifier": "for all grids, seeds and remaining arguments", "why_tests_cant": "all configurations", "anchors": ["drdmannturb/fluctuation_generation/fluctuation_field_generator.py::FluctuationFieldGenerator.__init__", "drdmannturb/fluctuation_generation/fluctuation_field_generator.py::FluctuationFieldGenerator._generate_block", "drdmannturb/fluctuation_generation/fluctuation_field_generator.py::FluctuationFieldGenerator._normalize_block"]}
{"id": "C51", "title": "Consecutive blocks share noise: one continuous noise stream", "statement": "Over any history of block generations the noise used for block i is the window [i*Nx, i*Nx + total) of one infinite noise sequence; consecutive blocks overlap in exactly total - Nx planes, and the kept central parts tile the sequence without gap or overlap.", "quantifier": "for all Nx, buffers, blend numbers, numbers of blocks and random streams", "why_tests_cant": "all histories", "anchors": ["drdmannturb/fluctuation_generation/fluctuation_field_generator.py::FluctuationFieldGenerator._generate_block", "drdmannturb/fluctuation_generation/fluctuation_field_generator.py::FluctuationFieldGenerator.__init__"]}
{"id": "C52", "title": "generate is append-only and splittable", "statement": "generate never modifies planes produced earlier, and generate(m) followed by generate(n) with the same profile arguments gives the same field as generate(m+n), when no low-frequency model is attached; with a low-frequency model attached this fails.", "quantifier": "for all m, n, seeds and parameters", "why_tests_cant": "all histories", "anchors": ["drdmannturb/fluctuation_generation/fluctuation_field_generator.py::FluctuationFieldGenerator.generate"]}
{"id": "C53", "title": "A rejected generate call leaves the field untouched but consumes noise", "statement": "If generate raises because of invalid profile arguments, the accumulated field is unchanged; the random stream and noise buffer have nevertheless advanced by one block.", "quantifier": "for all invalid argument combinations and prior histories", "why_tests_cant": "all crash points", "anchors": ["drdmannturb/fluctuation_generation/fluctuation_field_generator.py::FluctuationFieldGenerator.generate", "drdmannturb/fluctuation_generation/fluctuation_field_generator.py::FluctuationFieldGenerator._normalize_block", "drdmannturb/fluctuation_generation/fluctuation_field_generator.py::FluctuationFieldGenerator._generate_block"]}
{"id": "C54", "title": "Validation of profile arguments", "statement": "_normalize_block accepts exactly: a block with a non-zero entry, profile LOG or PL, zref, uref, z0 all > 0, and an exponent when PL.", "quantifier": "for all arguments", "why_tests_cant": "all combinations", "anchors": ["drdmannturb/fluctuation_generation/fluctuation_field_generator.py::FluctuationFieldGenerator._normalize_block"]}
{"id": "C55", "title": "Each block is normalised to unit mean square before the mean profile is added", "statement": "Subtracting the mean profile from any block returned by the normalisation leaves a field whose mean square over all points and components is exactly 1; components v and w receive no mean profile.", "quantifier": "for all non-zero blocks and valid arguments", "why_tests_cant": "all blocks", "anchors": ["drdmannturb/fluctuation_generation/fluctuation_field_generator.py::FluctuationFieldGenerator._normalize_block"]}
{"id": "C56", "title": "Generated field does not depend on the energy scale", "statement": "For fixed seed and length/time scales, replacing energy_spectrum_scale, friction_velocity by any other positive values leaves the generated field unchanged.", "quantifier": "for all positive scales, seeds and histories", "why_tests_cant": "all scales", "anchors": ["drdmannturb/fluctuation_generation/fluctuation_field_generator.py::FluctuationFieldGenerator.__init__", "drdmannturb/fluctuation_generation/fluctuation_field_generator.py::FluctuationFieldGenerator._normalize_block", "drdmannturb/fluctuation_generation/covariance_kernels.py::VonKarmanCovariance", "drdmannturb/fluctuation_generation/covariance_kernels.py::MannCovariance"]}
{"id": "C57", "title": "Mean wind profiles", "statement": "The power law equals uref at zref and is monotone in z; the log law is 0 at the ground and increasing in z when zref > z0; at zref it equals uref*log(zref/z0+1)/log(zref/z0), which is strictly greater than uref.", "quantifier": "for all z >= 0, 0 < z0 < zref, uref > 0, exponents >= 0", "why_tests_cant": "continuum", "anchors": ["drdmannturb/fluctuation_generation/fluctuation_field_generator.py::FluctuationFieldGenerator.log_law", "drdmannturb/fluctuation_generation/fluctuation_field_generator.py::FluctuationFieldGenerator.power_law"]}
{"id": "C58", "title": "Low-frequency field is added uniformly in height and only to u and v", "statement": "With a low-frequency model attached, the difference to the field generated without it is independent of z, zero in the w component, and at block i, plane j equals the interpolated 2D field at x = i*Lx + j*Lx/Nx within one call.", "quantifier": "for all blocks, points, 2D fields", "why_tests_cant": "all points", "anchors": ["drdmannturb/fluctuation_generation/fluctuation_field_generator.py::FluctuationFieldGenerator.generate", "drdmannturb/fluctuation_generation/low_frequency/fluctuation_field_generator.py::LowFreqGenerator.interp_slice"]}
{"id": "C59", "title": "Seed reproducibility", "statement": "Two generators built with the same arguments and seed and driven by the same call sequence return the same field when no low-frequency model is attached; with one attached the result also depends on the global random state.", "quantifier": "for all seeds, call histories, global random states", "why_tests_cant": "all histories", "anchors": ["drdmannturb/fluctuation_generation/fluctuation_field_generator.py::FluctuationFieldGenerator.__init__", "drdmannturb/fluctuation_generation/gaussian_random_fields.py::GaussianRandomField.reseed", "drdmannturb/fluctuation_generation/low_frequency/fluctuation_field_generator.py::LowFreqGenerator.generate"]}
{"id": "C60", "title": "Divergence evaluation", "statement": "evaluate_divergence is linear, is exact on affine fields on every grid with at least two points per axis, vanishes on constants, is unchanged by adding a height-dependent mean wind to u, and raises ValueError for spacing of length != 3 or last dimension != 3.", "quantifier": "for all grids, fields and spacings != 0", "why_tests_cant": "all fields", "anchors": ["drdmannturb/fluctuation_generation/fluctuation_field_generator.py::FluctuationFieldGenerator.evaluate_divergence"]}
{"id": "C61", "title": "Sampling is linear and translation equivariant in the noise", "statement": "For any kernel, the sampled vector field is linear in the noise, and circularly shifting the noise shifts the field by the same amount.", "quantifier": "for all grid sizes, kernels and noises", "why_tests_cant": "all sizes", "anchors": ["drdmannturb/fluctuation_generation/sampling_methods.py::Sampling_VF_FFTW.__call__"]}
{"id": "C62", "title": "Sampled field has zero mean and is divergence free in Fourier space", "statement": "For VK, Mann and DRD kernels the sum of each component of the sampled field over the periodic noise grid is 0, and at every non-Nyquist mode k.u_hat(k) = 0.", "quantifier": "for all noises and grid sizes", "why_tests_cant": "all noises", "anchors": ["drdmannturb/fluctuation_generation/sampling_methods.py::Sampling_VF_FFTW.__call__", "drdmannturb/fluctuation_generation/sampling_methods.py::Sampling_method_freq.__init__"]}
{"id": "C63", "title": "Sampled field is real", "statement": "On grids with odd sizes the inverse transform of kernel times transformed real noise has zero imaginary part; with an even size the Nyquist mode breaks this.", "quantifier": "for all odd sizes and noises (and an even-size witness)", "why_tests_cant": "all sizes", "anchors": ["drdmannturb/fluctuation_generation/sampling_methods.py::Sampling_FFT.__call__", "drdmannturb/fluctuation_generation/sampling_methods.py::Sampling_VF_FFTW.__call__", "drdmannturb/fluctuation_generation/sampling_methods.py::Sampling_method_freq.__init__"]}
{"id": "C64", "title": "FFT and FFTW samplers agree up to a constant", "statement": "For a real kernel even in k the FFTW sampler returns sqrt(number of voxels) times the scipy FFT sampler's field for the same noise.", "quantifier": "for all sizes and noises", "why_tests_cant": "all sizes", "anchors": ["drdmannturb/fluctuation_generation/sampling_methods.py::Sampling_FFTW.__call__", "drdmannturb/fluctuation_generation/sampling_methods.py::Sampling_FFT.__call__"]}
{"id": "C65", "title": "The sampler is stateless", "statement": "The field returned for a given noise array does not depend on previously sampled arrays although buffers are reused.", "quantifier": "for all sequences of calls with 3-component noise", "why_tests_cant": "all histories", "anchors": ["drdmannturb/fluctuation_generation/sampling_methods.py::Sampling_VF_FFTW.__call__"]}
{"id": "C66", "title": "Random-field grid bookkeeping and method selection", "statement": "GaussianRandomField construction raises exactly for mixed scalar/array grids, wrong lengths, or an unknown sampling method; the domain slice returns the whole grid; the physical size is spacing times number of points.", "quantifier": "for all arguments", "why_tests_cant": "all combinations", "anchors": ["drdmannturb/fluctuation_generation/gaussian_random_fields.py::GaussianRandomField.__init__", "drdmannturb/fluctuation_generation/gaussian_random_fields.py::GaussianRandomField.setSamplingMethod"]}
{"id": "C67", "title": "Computational grid of the low-frequency generator", "statement": "For positive lengths the internal grid has an even number (>= 2) of points per axis, isotropic spacing equal to the finer user spacing, length at least max(user length, 5 L_2d) and less than two cells more, at least as many points as the user grid, and the constructor raises only if the normalisation constant cannot be computed.", "quantifier": "for all positive factors, lengths and exponents", "why_tests_cant": "ceil/parity over all reals", "anchors": ["drdmannturb/fluctuation_generation/low_frequency/fluctuation_field_generator.py::LowFreqGenerator._calculate_buffer_sizes", "drdmannturb/fluctuation_generation/low_frequency/fluctuation_field_generator.py::LowFreqGenerator.__init__"]}
{"id": "C68", "title": "Extraction returns the centred window", "statement": "_extract_field_portion never raises for grids built by the constructor, returns exactly user_N1 x user_N2 values, and the left and right margins differ by at most one point.", "quantifier": "for all grid sizes", "why_tests_cant": "all sizes", "anchors": ["drdmannturb/fluctuation_generation/low_frequency/fluctuation_field_generator.py::LowFreqGenerator._extract_field_portion", "drdmannturb/fluctuation_generation/low_frequency/fluctuation_field_generator.py::LowFreqGenerator.generate"]}
{"id": "C69", "title": "The returned low-frequency field has the requested physical extent", "statement": "Adjacent returned samples are user_dx (user_dy) apart in the simulated field.", "quantifier": "for all configurations", "why_tests_cant": "depends on anisotropic configuration", "anchors": ["drdmannturb/fluctuation_generation/low_frequency/fluctuation_field_generator.py::LowFreqGenerator._calculate_buffer_sizes", "drdmannturb/fluctuation_generation/low_frequency/fluctuation_field_generator.py::LowFreqGenerator._extract_field_portion", "drdmannturb/fluctuation_generation/low_frequency/fluctuation_field_generator.py::LowFreqGenerator.interp_slice"]}
{"id": "C70", "title": "Low-frequency field is incompressible with zero mean", "statement": "For any noise k1*u1_hat + k2*u2_hat = 0 at every mode of the arrays handed to the inverse transform and, after the imaginary part is dropped, at every mode of the real fields off the Nyquist lines (on a Nyquist line it fails whenever the noise has energy there); the zero mode vanishes, so both full-grid components average to 0.", "quantifier": "for all noises, parameters and grid sizes", "why_tests_cant": "all noises", "anchors": ["drdmannturb/fluctuation_generation/low_frequency/fluctuation_field_generator.py::LowFreqGenerator._generate_numba_helper", "drdmannturb/fluctuation_generation/low_frequency/fluctuation_field_generator.py::LowFreqGenerator.generate"]}
{"id": "C71", "title": "Normalisation constant gives the requested variance", "statement": "2 * integral over (0, infinity) of c times the spectrum shape equals sigma2 for the c returned by _compute_c, provided the integral is computed exactly and is not below 1e-16; c is positive for positive sigma2.", "quantifier": "for all sigma2, L_2d > 0, z_i", "why_tests_cant": "improper integral", "anchors": ["drdmannturb/fluctuation_generation/low_frequency/fluctuation_field_generator.py::LowFreqGenerator._compute_c"]}
{"id": "C72", "title": "2D interpolation is exact at nodes, bounded, and zero outside", "statement": "interp_slice returns the node value at grid nodes, a convex combination of the four surrounding values inside the node range, and 0 outside; it raises RuntimeError before generate has been called.", "quantifier": "for all fields and target coordinates", "why_tests_cant": "continuum of targets", "anchors": ["drdmannturb/fluctuation_generation/low_frequency/fluctuation_field_generator.py::LowFreqGenerator.interp_slice"]}
{"id": "C73", "title": "Estimated spectrum at the Nyquist wavenumber", "statement": "compute_spectrum returns non-negative spectra on strictly increasing positive wavenumbers; for exp1 >= 1 the last (Nyquist) value is always 0 whatever the field.", "quantifier": "for all fields and grid sizes", "why_tests_cant": "all fields", "anchors": ["drdmannturb/fluctuation_generation/low_frequency/fluctuation_field_generator.py::LowFreqGenerator.compute_spectrum", "drdmannturb/fluctuation_generation/low_frequency/fluctuation_field_generator.py::LowFreqGenerator._compute_spectrum_numba_helper"]}
{"id": "C74", "title": "Analytical low-frequency spectra", "statement": "The F11 and F22 integrands are non-negative, even in k1 and in k2, and sum to E(kappa)/(pi k); with psi = 45 degrees kappa = k.", "quantifier": "for all wavenumbers and parameters", "why_tests_cant": "continuum", "anchors": ["drdmannturb/fluctuation_generation/low_frequency/fluctuation_field_generator.py::LowFreqGenerator.analytical_spectrum"]}
{"id": "C75", "title": "Plot grid and components line up", "statement": "In the plotting helpers the n-th flattened coordinate triple is the location of the n-th flattened value of each component, for every field shape (reshape=True); the magnitude is >= each |component|.", "quantifier": "for all shapes and fields", "why_tests_cant": "all shapes", "anchors": ["drdmannturb/fluctuation_generation/wind_plot.py::create_grid", "drdmannturb/fluctuation_generation/wind_plot.py::format_wind_field", "drdmannturb/fluctuation_generation/wind_plot.py::plot_velocity_components", "drdmannturb/fluctuation_generation/wind_plot.py::plot_velocity_magnitude"]}
{"id": "C76", "title": "Coordinates used for profile, field and VTK output", "statement": "The VTK cell spacing equals the spacing used to sample the field; the mean profile is instead evaluated on nodes spaced Lz/(N-1), so its last node is exactly the domain height while the field's last node is Lz - Lz/N.", "quantifier": "for all dimensions and levels", "why_tests_cant": "all grids", "anchors": ["drdmannturb/fluctuation_generation/fluctuation_field_generator.py::FluctuationFieldGenerator.save_to_vtk", "drdmannturb/fluctuation_generation/fluctuation_field_generator.py::FluctuationFieldGenerator._normalize_block", "drdmannturb/fluctuation_generation/fluctuation_field_generator.py::FluctuationFieldGenerator.__init__"]}
{"id": "C77", "title": "Sheared kernel is the exact rapid-distortion solution", "statement": "For k1 != 0 the three distortion coefficients used by the Mann and DRD kernels equal the time integrals of the linearised (rapid distortion) equations over the accumulated strain beta, for every strain (including large ones where the arctangent changes branch).", "quantifier": "for all wavevectors with k1 != 0 and all real strains", "why_tests_cant": "closed form versus integral on a continuum including the branch cut", "anchors": ["drdmannturb/fluctuation_generation/covariance_kernels.py::MannCovariance.precompute_Spectrum", "drdmannturb/fluctuation_generation/nn_covariance.py::NNCovariance.precompute_Spectrum"]}
{"id": "C78", "title": "Plane k1 = 0 is left undistorted", "statement": "On the plane k1 = 0 the sheared kernels apply no distortion (the division by zero is replaced by 0), whereas the rapid-distortion solution transfers -beta times the vertical component into the streamwise one; the streamwise variance density of such modes is strictly underestimated whenever k2 != 0 and beta != 0.", "quantifier": "for all wavevectors on the plane and all strains", "why_tests_cant": "a set of measure zero in parameter space but a full plane of every generated grid", "anchors": ["drdmannturb/fluctuation_generation/covariance_kernels.py::MannCovariance.precompute_Spectrum"]}
{"id": "C79", "title": "A disabled loss term makes the learning-rate advice permanently 'reduce'", "statement": "If any of the five loss terms is recorded as 0 over the whole window (e.g. because its coefficient is 0) and some component mean exceeds 1e-6, should_adjust_learning_rate always recommends reducing the rate; training is never reported healthy.", "quantifier": "for all loss histories, epochs and windows >= 2", "why_tests_cant": "all histories", "anchors": ["drdmannturb/spectra_fitting/loss_functions.py::LossAggregator.should_adjust_learning_rate", "drdmannturb/spectra_fitting/loss_functions.py::LossAggregator.get_loss_diagnostics"]}
{"id": "C80", "title": "Calibrating on the library's own data", "statement": "calibrate never returns normally on von Karman data with four or six components, nor on Kaimal data with six: these data have identically zero off-diagonal components, the relative squared error divides by them, and training ends with an exception, whatever the model, coefficients and optimiser.", "quantifier": "for all grids, scales, models, loss coefficients and optimiser trajectories that evaluate the closure at least once", "why_tests_cant": "needs a statement about every trajectory", "anchors": ["drdmannturb/spectra_fitting/calibration.py::CalibrationProblem.calibrate", "drdmannturb/spectra_fitting/data_generator.py::generate_von_karman_spectra", "drdmannturb/spectra_fitting/data_generator.py::generate_kaimal_spectra"]}
{"id": "C81", "title": "Two-point covariance of the sampled field", "statement": "For noise that is white with variance equal to the cell volume (any square-integrable law), the sampled field is stationary and E[u_i(x) u_j(y)] is the average over the grid's wavevectors k of R_ij(k) exp(i k.(x-y)), where R is positive semidefinite and equals S S* (S the kernel) at every wavevector without a Nyquist index; on grids with odd sizes that is all of them. The wave of mode k is exp(i kappa.(X-Y)) at the physical grid positions X, Y, with kappa the wavevector at which the kernel is evaluated, in the resolved range [-pi/h, pi/h).", "quantifier": "for all kernels, grid sizes (even and odd), spacings and white noise laws", "why_tests_cant": "an expectation over the random input", "anchors": ["drdmannturb/fluctuation_generation/sampling_methods.py::Sampling_VF_FFTW.__call__", "drdmannturb/fluctuation_generation/gaussian_random_fields.py::GaussianRandomField.sample_noise"]}
{"id": "C82", "title": "Variance of the simulated low-frequency field", "statement": "For unit white noise (any square-integrable law) the simulated field is stationary, and the variance of each component at every point is the Riemann sum, over the wavenumber grid of the computational domain, of that component's analytical spectral density, with the Nyquist line of the multiplying wavenumber missing.", "quantifier": "for all configurations with positive constants, grid sizes, spacings and white noise laws", "why_tests_cant": "an expectation over the random input", "anchors": ["drdmannturb/fluctuation_generation/low_frequency/fluctuation_field_generator.py::LowFreqGenerator.generate", "drdmannturb/fluctuation_generation/low_frequency/fluctuation_field_generator.py::LowFreqGenerator._generate_numba_helper", "drdmannturb/fluctuation_generation/low_frequency/fluctuation_field_generator.py::LowFreqGenerator.analytical_spectrum"]}
{"id": "C83", "title": "Energy balance of the estimated spectrum", "statement": "For a tolerance below the wavenumber spacing, twice the sum of each spectrum returned by compute_spectrum times 2 pi/L1 equals the mean square of the field minus the energy of the modes k1 = 0 and k1 = -pi/dx; hence it never exceeds the mean square.", "quantifier": "for all fields, grid sizes, domain lengths and tolerances", "why_tests_cant": "all fields", "anchors": ["drdmannturb/fluctuation_generation/low_frequency/fluctuation_field_generator.py::LowFreqGenerator.compute_spectrum", "drdmannturb/fluctuation_generation/low_frequency/fluctuation_field_generator.py::LowFreqGenerator._compute_spectrum_numba_helper"]}
{"id": "C84", "title": "Generator amplitude and analytical spectrum agree", "statement": "The squared Fourier amplitude with which a mode is synthesised equals (2 pi)^2/(dx dy) times the integrand of analytical_spectrum at that mode's wavenumbers, for both components.", "quantifier": "for all modes away from the origin and all configurations", "why_tests_cant": "continuum of parameters, two independently written formulas", "anchors": ["drdmannturb/fluctuation_generation/low_frequency/fluctuation_field_generator.py::LowFreqGenerator._generate_numba_helper", "drdmannturb/fluctuation_generation/low_frequency/fluctuation_field_generator.py::LowFreqGenerator.generate", "drdmannturb/fluctuation_generation/low_frequency/fluctuation_field_generator.py::LowFreqGenerator.analytical_spectrum"]}
{"id": "C85", "title": "Generation succeeds with probability one", "statement": "For physical arguments (positive scales, non-zero friction velocity; any of the three models) and a stream of independent random values without atoms, every sequence of generate calls with valid profile arguments succeeds with probability one; with friction velocity zero every call asking for a block raises ValueError.", "quantifier": "for all arguments, seeds' streams up to a null set, and call histories", "why_tests_cant": "a probability-one statement over infinite random streams and all histories", "anchors": ["drdmannturb/fluctuation_generation/fluctuation_field_generator.py::FluctuationFieldGenerator.generate", "drdmannturb/fluctuation_generation/fluctuation_field_generator.py::FluctuationFieldGenerator._normalize_block"]}
{"id": "C86", "title": "Which study jobs of the low-frequency generator can run", "statement": "A job of mesh_independence_study or domain_size_study succeeds exactly when along each axis the returned field has as many points as the computational grid (or a single one), and raises ValueError otherwise; on square domains this means a domain of at least five length scales. Hence mesh_independence_study (domain of four length scales, exponents from 1 on) never draws anything, and domain_size_study draws exactly the factors >= 5, in ascending order.", "quantifier": "for all configurations, exponents, lists of positive factors and random streams", "why_tests_cant": "every job fails only inside a worker process and only prints the error; all exponents and factors", "anchors": ["drdmannturb/fluctuation_generation/low_frequency/large_plot.py::_run_single_mesh", "drdmannturb/fluctuation_generation/low_frequency/large_plot.py::mesh_independence_study", "drdmannturb/fluctuation_generation/low_frequency/large_plot.py::_run_single_domain_size", "drdmannturb/fluctuation_generation/low_frequency/large_plot.py::domain_size_study"]}
{"id": "C87", "title": "The studies underestimate the variance by the number of realizations", "statement": "For white noise of unit variance the variance reported by a study job has expectation V/R, where V is the variance of one generated field at any point and R the number of realizations averaged (the fields, not their variances, are averaged); the reported norm is always the reported variance times the area of the domain.", "quantifier": "for all configurations whose two grids agree, all numbers of realizations, all points and all white noise laws", "why_tests_cant": "an expectation over the random input", "anchors": ["drdmannturb/fluctuation_generation/low_frequency/large_plot.py::_run_single_mesh", "drdmannturb/fluctuation_generation/low_frequency/large_plot.py::_run_single_domain_size"]}
{"id": "C88", "title": "Variance printed by plot_spectra_comparison", "statement": "After generate, the variance that plot_spectra_comparison prints 'from F11_num' (and 'from F22_num') is at most half of the 'actual' variance printed beside it; the two agree only for a constant field.", "quantifier": "for all configurations (domains up to 6e9 m), all generated fields", "why_tests_cant": "all fields and grid sizes", "anchors": ["drdmannturb/fluctuation_generation/low_frequency/large_plot.py::plot_spectra_comparison", "drdmannturb/fluctuation_generation/low_frequency/fluctuation_field_generator.py::LowFreqGenerator.compute_spectrum"]}
{"id": "C89", "title": "The Mann eddy lifetime is the turnover time of the library's von Karman spectrum", "statement": "MannEddyLifetime(kappa) equals kappa^-1 times the inverse square root of two thirds of the integral from kappa to infinity of VKEnergySpectrum, i.e. Mann's definition of the eddy lifetime for the very spectrum that the library pairs it with; EddyLifetime for type MANN is the time scale times this value at L|k|.", "quantifier": "for all positive wavenumbers and all scales", "why_tests_cant": "identity between a hypergeometric function and an improper integral on a continuum", "anchors": ["drdmannturb/common.py::MannEddyLifetime", "drdmannturb/common.py::VKEnergySpectrum", "drdmannturb/spectra_fitting/one_point_spectra.py::OnePointSpectra.EddyLifetime"]}
{"id": "C90", "title": "Shape of the Mann eddy lifetime", "statement": "MannEddyLifetime is finite and positive, strictly decreasing, never below kappa^(-2/3) and at most (1+kappa^-2)^(17/12) times it; it behaves like kappa^(-2/3) in the inertial range and like C/kappa, C finite and positive, at low wavenumbers; every log-log secant has slope strictly between -1 and -2/3.", "quantifier": "for all positive wavenumbers", "why_tests_cant": "asymptotics and strict monotonicity on a continuum", "anchors": ["drdmannturb/common.py::MannEddyLifetime"]}
{"id": "C91", "title": "Exponent of the power-law approximation of the Mann lifetime", "statement": "The exponent found by init_mann_approximation lies strictly between -1 and -2/3 whatever scales were given at construction; hence along every direction the MANN_APPROX lifetime divided by the MANN lifetime tends to 0 both as |k| grows and as |k| tends to 0.", "quantifier": "for all positive scales and all directions", "why_tests_cant": "limits, and a regression over all positive scales", "anchors": ["drdmannturb/spectra_fitting/one_point_spectra.py::OnePointSpectra.init_mann_approximation", "drdmannturb/common.py::Mann_linear_exponential_approx", "drdmannturb/common.py::MannEddyLifetime"]}
{"id": "C92", "title": "Which sampling methods work with the library's kernels", "statement": "The library's kernels return spectra of shape (3,3)+grid. With them, on grids of at least four points per axis, sample() returns an array of the grid's shape (with or without a component axis) only for the method vf_fftw with explicitly passed noise of shape grid+(3,): fft (the default), dst and dct return five-dimensional arrays, fftw raises ValueError, and vf_fftw without a noise argument raises because the default noise has no component axis.", "quantifier": "for all grid sizes and methods, scalar and vector fields", "why_tests_cant": "all grid sizes", "anchors": ["drdmannturb/fluctuation_generation/gaussian_random_fields.py::GaussianRandomField.sample", "drdmannturb/fluctuation_generation/gaussian_random_fields.py::VectorGaussianRandomField", "drdmannturb/fluctuation_generation/sampling_methods.py::Sampling_FFTW.__call__", "drdmannturb/fluctuation_generation/sampling_methods.py::Sampling_VF_FFTW.__call__", "drdmannturb/fluctuation_generation/sampling_methods.py::Sampling_FFT.__call__", "drdmannturb/fluctuation_generation/sampling_methods.py::Sampling_DST.__call__", "drdmannturb/fluctuation_generation/sampling_methods.py::Sampling_DCT.__call__"]}
{"id": "C93", "title": "Sine and cosine transform samplers", "statement": "For a user-supplied scalar spectrum and white noise: with a constant spectrum c the dst field is white with variance c^2 8 (n1+1)(n2+1)(n3+1)/norm^2 times that of the noise, while the dct field's variance doubles for every zero coordinate; for every spectrum the dct variance is largest at the grid corner; and the dst field is not stationary (for the spectrum concentrated at k = 0 the first two values along an axis of at least three points have different variances). Neither method samples the stationary field that the documentation asks of the spectrum.", "quantifier": "for all grid sizes, spectra and white noise laws", "why_tests_cant": "an expectation over the random input", "anchors": ["drdmannturb/fluctuation_generation/sampling_methods.py::Sampling_DST.__call__", "drdmannturb/fluctuation_generation/sampling_methods.py::Sampling_DCT.__call__"]}
{"id": "C94", "title": "Predicted spectra converge under grid refinement, but not under domain enlargement", "statement": "For every lifetime model and energy spectrum and k1 > 0, OnePointSpectra on grids over the fixed square |k2|,|k3| <= 10^p2 converges, as p1 decreases and the number of points grows, to k1 times the double integral of the rapid-distortion tensor (11, 22, 33, 23, 12 cut below at 1e-12; 13 within the floor times the area). The floor adds at most 1e-12 times the area to the auto-spectra, and because of it they grow beyond every bound when p2 is increased.", "quantifier": "for all parameters, all lifetime models, all k1 > 0 and every tolerance (limits in p1, N and p2)", "why_tests_cant": "a limit over all sufficiently fine grids; a test evaluates a few grids", "anchors": ["drdmannturb/spectra_fitting/one_point_spectra.py::OnePointSpectra.__init__", "drdmannturb/spectra_fitting/one_point_spectra.py::OnePointSpectra.forward", "drdmannturb/spectra_fitting/one_point_spectra.py::OnePointSpectra.PowerSpectra", "drdmannturb/spectra_fitting/one_point_spectra.py::OnePointSpectra.quad23"]}
{"id": "C95", "title": "Spectra of the generated field and the fitted spectra", "statement": "For the vector sampler with white noise of variance equal to the cell volume, the expected line spectrum along x (periodogram scaled such that it sums to the mean covariance) at every resolved wavenumber is the sum of the kernel's tensor over the transverse wavenumbers; with growing odd transverse sizes at fixed spacings it converges to cell volume/(2 pi)^3 times the integral of the textbook tensor over |k2|<=pi/dy, |k3|<=pi/dz: isotropic for the von Karman kernel, sheared with the fitter's Mann lifetime for the Mann kernel, sheared with the fitter's network lifetime at length scale h_ref for the network kernel. In particular, with dy=dz=pi/10^p2, OnePointSpectra with the same scales and type MANN predicts, up to k1 and this constant factor, the spectra of the generated field.", "quantifier": "for all kernel parameters, spacings, wavenumbers, tolerances, all large enough boxes and all white noises", "why_tests_cant": "an expectation over the noise and a limit over box sizes, tying two separate pipelines together", "anchors": ["drdmannturb/fluctuation_generation/sampling_methods.py::Sampling_VF_FFTW.__call__", "drdmannturb/fluctuation_generation/covariance_kernels.py::MannCovariance.precompute_Spectrum", "drdmannturb/fluctuation_generation/covariance_kernels.py::VonKarmanCovariance.precompute_Spectrum", "drdmannturb/fluctuation_generation/nn_covariance.py::NNCovariance.precompute_Spectrum", "drdmannturb/spectra_fitting/one_point_spectra.py::OnePointSpectra.forward"]}
{"id": "C96", "title": "Coherence: convergence, decay and far separations", "statement": "Refining the coherence grid at fixed domain brings SpectralCoherence at every (k1, separation) arbitrarily close to |integral Phi_ii exp(i k2 r)|^2 / |integral Phi_ii|^2 of the rapid-distortion tensor (cut below at 1e-32) over |k2|,|k3| <= 10^p2/L. That quantity tends to 0 for large separations, but on every fixed grid the returned values come back arbitrarily close to 1 at arbitrarily large separations, for all components and wavenumbers at once: beyond a grid-dependent distance the returned coherence is an artefact.", "quantifier": "for all parameters, lifetime models, k1 > 0, separations, grids and tolerances", "why_tests_cant": "limits over grids and over an unbounded range of separations", "anchors": ["drdmannturb/spectra_fitting/one_point_spectra.py::OnePointSpectra.SpectralCoherence", "drdmannturb/spectra_fitting/one_point_spectra.py::OnePointSpectra._PowerSpectra_coherence", "drdmannturb/spectra_fitting/one_point_spectra.py::OnePointSpectra._quad23_coherence"]}
{"id": "C97", "title": "Statistics of generated blocks", "statement": "Without a low-frequency part and with a stream of independent values of one atomless law, the blocks of the returned field minus the mean wind are, with probability one for all call histories at once, a stationary sequence of random arrays bounded by sqrt(3 Nx Ny Nz): the blocks from the j-th on have the same joint law as those from the first on; blocks whose noise windows do not meet are independent; for every integrable quantity computed from one block, the average over the blocks converges to its expectation; and if the law is symmetric the mean is zero, so the wind at every point of the block, averaged over the blocks of one call, tends to the mean profile.", "quantifier": "for all physical arguments, models, call histories, points and integrable block statistics, with probability one", "why_tests_cant": "laws of infinite random sequences and limits in the number of blocks", "anchors": ["drdmannturb/fluctuation_generation/fluctuation_field_generator.py::FluctuationFieldGenerator.generate", "drdmannturb/fluctuation_generation/fluctuation_field_generator.py::FluctuationFieldGenerator._generate_block", "drdmannturb/fluctuation_generation/fluctuation_field_generator.py::FluctuationFieldGenerator._normalize_block"]}
{"id": "C98", "title": "Where consecutive blocks meet", "statement": "The field from which block j+1 is cut equals the field of block j continued by Nx planes, plus the sampler's response to the exchange of the Nx oldest noise planes; for white noise the mean square of this jump at a point is twice the noise variance times the squared response summed over the displacements to the exchanged planes (all beyond the buffer for the first plane of a block), the covariance across the seam is that within one field minus the corresponding sum, and averaged over the window the mean square of the jump is 2 Nx/shape1 times that of the field. The returned blocks are these fields behind the buffer, each divided by its own gain, plus the mean wind.", "quantifier": "for all arguments, streams, histories, points and white noise laws", "why_tests_cant": "identities over all random streams and an expectation", "anchors": ["drdmannturb/fluctuation_generation/fluctuation_field_generator.py::FluctuationFieldGenerator._generate_block", "drdmannturb/fluctuation_generation/fluctuation_field_generator.py::FluctuationFieldGenerator.generate", "drdmannturb/fluctuation_generation/sampling_methods.py::Sampling_VF_FFTW.__call__"]}
{"id": "C99", "title": "Law of the sampled field and of the generated blocks", "statement": "For every spectrum the field sampled from independent normal noise is jointly Gaussian over all points and components, and for independent identically distributed noise it is strictly stationary on the periodic box; the fields on the windows of any number of blocks are jointly Gaussian with the stated variance at each point. The blocks that generate returns are not: it is impossible that all values of a block have normal laws.", "quantifier": "for all spectra, grids, noise laws, arguments and numbers of blocks", "why_tests_cant": "statements about laws of random fields", "anchors": ["drdmannturb/fluctuation_generation/sampling_methods.py::Sampling_VF_FFTW.__call__", "drdmannturb/fluctuation_generation/fluctuation_field_generator.py::FluctuationFieldGenerator._generate_block", "drdmannturb/fluctuation_generation/fluctuation_field_generator.py::FluctuationFieldGenerator._normalize_block"]}
{"id": "C100", "title": "Spectrum of a generator built from a saved fit", "statement": "After any training and saving of a network lifetime, a DRD generator can be built from the file for every box; its kernel holds the trained network, the length scale reference_height times the trained l, the trained time scale, and its buffer and margins are sized with these. Its spectral tensor at wavevector k is 4 pi l^(-5/3) times u*^2 zref^3 Phi(zref k), where Phi is the fitted tensor with the lifetime taken at zref k / l; spectra of sampled fields converge to the corresponding integrals. For l = 1 the normalised one-point spectra k1 F / u*^2 are therefore 4 pi times those of the fit at zref k1, and never equal to them.", "quantifier": "for all trainings, files, boxes, friction velocities, reference heights, wavevectors and components", "why_tests_cant": "composition of training, serialisation, scale conversion and sampling over all inputs; the discrepancy is hidden by the normalisation of the blocks", "anchors": ["drdmannturb/fluctuation_generation/fluctuation_field_generator.py::FluctuationFieldGenerator.__init__", "drdmannturb/fluctuation_generation/nn_covariance.py::NNCovariance.precompute_Spectrum", "drdmannturb/spectra_fitting/one_point_spectra.py::OnePointSpectra.forward"]}
{"id": "C101", "title": "Value of the training objective", "statement": "For predictions and targets without zeros on at least three ascending wavenumbers, eval returns exactly the mean squared log-ratio + gamma times the mean over the three components of the mean squared coherence difference + alpha_pen1/zref times the mean squared positive part of the log-log slope + alpha_pen2/zref^2 times the mean squared positive part of the log-log curvature + beta_reg times the mean square of the network parameters; a weight that is not positive counts as zero, terms without coherence data or network parameters are absent, and the five histories record the weighted terms, each under its own name.", "quantifier": "for all tables of predictions and targets, wavenumbers, coherence tables, parameter vectors, weights and reference heights", "why_tests_cant": "a formula over all table sizes and contents; tests compare single numbers", "anchors": ["drdmannturb/spectra_fitting/loss_functions.py::LossAggregator.eval", "drdmannturb/spectra_fitting/loss_functions.py::LossAggregator.Pen1stOrder", "drdmannturb/spectra_fitting/loss_functions.py::LossAggregator.Pen2ndOrder", "drdmannturb/spectra_fitting/loss_functions.py::LossAggregator.Regularization", "drdmannturb/spectra_fitting/loss_functions.py::LossAggregator.CoherenceLoss"]}
{"id": "C102", "title": "Continuity of the predictions and of the training objective in the parameters", "statement": "As functions of the trainable parameters (logarithms of the scales, network weights, exponents), over every region where the lifetime model is sound (a network sends no non-zero wavevector to zero), every predicted spectrum except uw is continuous at every non-zero k1. With the three components u, v, w, at least three ascending wavenumbers and non-zero data, every evaluation of the training closure succeeds and its value is an explicit continuous objective, with and without coherence data, penalties and regularisation; hence on a compact region the loss attains its least value. The uw spectrum is not continuous in the time scale, because the floor keeps the sign of the entry; it stays within |k1| 1e-12 times the area of the square of a continuous function.", "quantifier": "for all lifetime models, parameters, wavenumbers, grids, data and loss weights", "why_tests_cant": "continuity and attainment over a continuum of parameters", "anchors": ["drdmannturb/spectra_fitting/one_point_spectra.py::OnePointSpectra.forward", "drdmannturb/spectra_fitting/one_point_spectra.py::OnePointSpectra.PowerSpectra", "drdmannturb/spectra_fitting/loss_functions.py::LossAggregator.eval", "drdmannturb/spectra_fitting/calibration.py::CalibrationProblem.calibrate"]}
{"id": "C103", "title": "The training loss is one function of the parameters", "statement": "During one calibration the value the closure returns at a parameter vector does not depend on the moment (epoch, earlier queries, optimiser): it is the same at any time of the run, and the loss on record after a step is that function at the last query. If the data are the model's own predictions and the penalties are off, the loss is exactly 0 at the generating parameters, nowhere negative, and zero only at parameters predicting the same data. But with coherence data the function depends on where the run starts: the coherence is integrated on a grid fixed from the initial length scale, so that two runs differing only in the initial L assign different losses to the same parameters.", "quantifier": "for all configurations, optimisers, histories and parameter vectors", "why_tests_cant": "quantifies over all execution histories of a stateful object", "anchors": ["drdmannturb/spectra_fitting/calibration.py::CalibrationProblem.calibrate", "drdmannturb/spectra_fitting/one_point_spectra.py::OnePointSpectra.SpectralCoherence"]}
{"id": "C104", "title": "What the gradients of a fit are gradients of", "statement": "Without coherence data and with every lifetime model except MANN, loss.backward() differentiates the loss as a function of all parameters. With coherence data it does not: wherever the loss is finite the gradient is exactly that of the loss without coherence data, whatever the data and gamma_coherence, although the loss itself varies with the coherence (for every object with constant lifetime and learnable spectrum there is a line of parameters along which the two losses have the same gradients everywhere and yet differ by a non-constant amount). Consequently two Adam runs that differ only in the coherence data and perform the same number of epochs and the same learning-rate reductions (none below 50 epochs) return the same parameters. With the MANN lifetime the length scale inside the lifetime is not differentiated, although the lifetime depends on it to first order at every wavevector.", "quantifier": "for all configurations, coherence data, weights, parameter vectors, differentiation engines and gradient-driven optimisers", "why_tests_cant": "a run with and without coherence data ends with plausible parameters either way; the claim is about all data and all runs", "anchors": ["drdmannturb/spectra_fitting/calibration.py::CalibrationProblem.calibrate", "drdmannturb/spectra_fitting/calibration.py::CalibrationProblem._compute_model_coherence", "drdmannturb/common.py::MannEddyLifetime", "drdmannturb/spectra_fitting/loss_functions.py::LossAggregator.CoherenceLoss"]}
{"id": "C105", "title": "Diagnostic calls: divergence, gradient of the prediction, norm of the network", "statement": "get_div raises AttributeError on every object the library constructs (freq is never set). With freq set, it confirms that the fitted tensor is divergence free at every wavevector with k1 != 0 if the entries come in the documented order, but in the order in which PowerSpectra returns them its result is 3 (Phi23 - Phi12)(k2, k1-k3, -k2)/tr Phi, non-zero for every parameter set somewhere, and the floor of 1e-12 makes the second entry non-zero at k2 = 0 in either order. eval_grad raises RuntimeError for every object and argument and leaves parameters and predictions unchanged. eval_trainable_norm is defined exactly for networks and is the Euclidean norm of their parameters, whose square over their number is the regularisation term.", "quantifier": "for all objects, parameters, lifetime models, wavevectors and arguments", "why_tests_cant": "algebraic identities over all wavevectors and an exception for every argument", "anchors": ["drdmannturb/spectra_fitting/one_point_spectra.py::OnePointSpectra.get_div", "drdmannturb/spectra_fitting/calibration.py::CalibrationProblem.eval_grad", "drdmannturb/spectra_fitting/calibration.py::CalibrationProblem.eval_trainable_norm"]}
{"id": "C106", "title": "What plot and print_calibrated_params show after a fit", "statement": "The line labelled Model in the coherence figure is, for every selected separation, component and frequency, the coherence of the object as it was when the last fit with coherence data started, whatever the optimiser did, whether the fit returned or raised, and whatever calls other than a fit followed; the fitted object's coherence can differ. With data from a file the figure has four rows, whose markers are the file's values at the selected separations. print_calibrated_params reports the result of the last fit that returned, unchanged by later failing fits and parameter assignments, and raises ValueError before; without a learnable spectrum it always raises. In the lifetime figure for the MANN lifetime the four model curves coincide, are drawn against k times the initial length scale, and after a fit that changed the length scale nowhere give the fitted lifetime of the abscissa.", "quantifier": "for all objects, configurations, optimisers, files and sequences of calls", "why_tests_cant": "quantifies over call histories and optimisers", "anchors": ["drdmannturb/spectra_fitting/calibration.py::CalibrationProblem.plot", "drdmannturb/spectra_fitting/calibration.py::CalibrationProblem._plot_coherence_data", "drdmannturb/spectra_fitting/calibration.py::CalibrationProblem.print_calibrated_params", "drdmannturb/spectra_fitting/calibration.py::CalibrationProblem.calibrate"]}
{"id": "C107", "title": "What the data say about the weights of the network", "statement": "For a network lifetime with the default ReLU activations, multiplying the layers by positive factors of product one, or reordering the units of a hidden layer, changes the lifetime at no wavevector, hence no prediction of spectra or coherence, and without regularisation not the training loss. So without regularisation every value of the loss is taken at parameters of arbitrarily large norm (as eval_trainable_norm reports it) with the same lifetime, and with regularisation parameters at which two layers have different sums of squared weights are never optimal: other parameters with the same lifetime everywhere have a strictly smaller loss.", "quantifier": "for all networks, factors, reorderings, configurations, data and states of the run", "why_tests_cant": "an invariance over a continuum of parameters and the resulting non-uniqueness of every fit", "anchors": ["drdmannturb/nn_modules.py::TauNet.forward", "drdmannturb/spectra_fitting/loss_functions.py::LossAggregator.Regularization", "drdmannturb/spectra_fitting/calibration.py::CalibrationProblem.calibrate", "drdmannturb/spectra_fitting/calibration.py::CalibrationProblem.eval_trainable_norm"]}
{"id": "C108", "title": "Learning rate of a fit", "statement": "With any optimiser the learning rate in force after epoch e of a fit is the configured rate times (1+cos(pi e/nepochs))/2 times all reductions decided so far: reductions persist although the scheduler sets the rate anew every epoch; the rate is positive during the fit, never increases, and the rates of all epochs sum to at most (nepochs+1)/2 times the configured one. Reductions are by 0.5, 0.3 or 0.7, at multiples of 50 epochs only, at most one each. Without coherence data a fit whose misfits exceed 1e-6 and which does not end below the tolerance is reduced at every multiple of 50 epochs, however well it progresses.", "quantifier": "for all optimisers, rates, numbers of epochs, reductions and runs", "why_tests_cant": "quantifies over all run lengths and histories of recorded losses", "anchors": ["drdmannturb/spectra_fitting/calibration.py::CalibrationProblem.calibrate", "drdmannturb/spectra_fitting/loss_functions.py::LossAggregator.should_adjust_learning_rate"]}
{"id": "C109", "title": "How far Adam can move the parameters, and that it leaves a perfect fit", "statement": "Whatever the gradients, a step of Adam changes no parameter by more than 7.3 times the learning rate, and a fit with Adam that returns and met only finite gradients has moved no parameter by more than 3.65 learning_rate (nepochs+1); so the returned L, Gamma and sigma differ from the initial ones by at most the factor exp(3.65 learning_rate (nepochs+1)). A fit whose first evaluation is below the tolerance still takes one step and reports the loss of the parameters it has left. On data which the model itself generated at the initial parameters (loss zero, and exact gradients are zero wherever they exist) the fit reports loss zero but returns other scales: the weight decay alone moves the logarithm of each scale by learning_rate 1e-5 |x|/(1e-5|x|+1e-8), at least 0.99 learning_rate if |x| >= 0.1.", "quantifier": "for all gradients, histories, configurations, data, differentiation engines and run lengths", "why_tests_cant": "a bound over all gradient sequences and all runs", "anchors": ["drdmannturb/spectra_fitting/calibration.py::CalibrationProblem.calibrate"]}
{"id": "C110", "title": "Variance of the low-frequency model compared with the requested sigma2", "statement": "The integral of the documented spectral density of each component over all wavevectors is the radial integral that the normalisation constant c sets to sigma2, times the directional mean of (k_j/k)^2 k/kappa. So the variances of u and v add up to sigma2 (within a relative 1e-14) and are equal at an anisotropy angle of 45 degrees, and at every other angle exceed sigma2 by at least the fraction cos(2 psi)^2/10; the ratio grows without bound as psi tends to 0 and is at most 1/min(cos psi, sin psi) (1+1e-14). u has the larger variance below 45 degrees and v above. The variance of every entry of the generated fields tends to these values as the domain grows and the grid is refined (while the absolute cut-offs of the code are inactive).", "quantifier": "for all parameters sigma2, L2d, z_i, all angles in (0, pi/2), all grids and all white-noise streams", "why_tests_cant": "an improper double integral as a function of the angle and a limit over all grids; single realisations scatter around it", "anchors": ["drdmannturb/fluctuation_generation/low_frequency/fluctuation_field_generator.py::LowFreqGenerator._compute_c", "drdmannturb/fluctuation_generation/low_frequency/fluctuation_field_generator.py::LowFreqGenerator.generate"]}
{"id": "C111", "title": "Expectation of the low-frequency spectrum estimate", "statement": "For a white-noise stream the covariance of any two entries of a generated component is the Fourier sum of the analytical spectral density over the wavenumbers of the computational grid. compute_spectrum reports the wavenumbers 2 pi a/L1, a = 1, ..., N1/2; below the Nyquist wavenumber the expectation of the estimate there is the sum of the mode variances weighted by Fejer kernels around plus and minus the wavenumber, divided by the wavenumber spacing. If the computational grid is not cropped along the first axis, this is exactly the Riemann sum over k2 of the analytical density at that k1, and it tends to the documented one-dimensional spectrum, and to the value analytical_spectrum returns, as the domain grows across, the grid is refined and k2_limit grows.", "quantifier": "for all parameters, grids, tolerances k_tol below the spacing, white-noise streams, wavenumbers and components", "why_tests_cant": "an expectation over random fields and a limit over all grids", "anchors": ["drdmannturb/fluctuation_generation/low_frequency/fluctuation_field_generator.py::LowFreqGenerator.compute_spectrum", "drdmannturb/fluctuation_generation/low_frequency/fluctuation_field_generator.py::LowFreqGenerator.analytical_spectrum", "drdmannturb/fluctuation_generation/low_frequency/fluctuation_field_generator.py::LowFreqGenerator.generate"]}
{"id": "C112", "title": "Averaged variances of the low-frequency studies", "statement": "For white noise the expected np.var of a returned component is the sum of all mode variances less the variance of its spatial mean (Fejer kernels of the returned size), the expected np.var of the field before cropping is exactly the variance of its entries; so cropping only lowers the expected variance, and without cropping it is the variance of every entry. anisotropy_study returns one entry per distinct angle, whose total is the sum of the two averages and whose averages have exactly these expected values for every positive number of realizations and position of the random stream; with independent noise they converge to them with probability one as the number of realizations grows. The averages printed by rectangular_domain_study and length_AND_grid_size_study have these expected values in every domain. anisotropy_study raises ValueError for an empty list of angles, TypeError for a single angle when plotting, and reports NaN without realizations.", "quantifier": "for all configurations, angles, domains, numbers of realizations, positions and white-noise streams", "why_tests_cant": "an expectation over random fields and an almost sure limit", "anchors": ["drdmannturb/fluctuation_generation/low_frequency/large_plot.py::anisotropy_study", "drdmannturb/fluctuation_generation/low_frequency/large_plot.py::rectangular_domain_study", "drdmannturb/fluctuation_generation/low_frequency/large_plot.py::length_AND_grid_size_study", "drdmannturb/fluctuation_generation/low_frequency/fluctuation_field_generator.py::LowFreqGenerator.generate"]}
{"id": "C113", "title": "The numerical curves of recreate_fig2", "statement": "With positive numbers of realizations and two generators with at least two points along the first direction, whatever they produced before, recreate_fig2 succeeds for every random stream; the abscissae of the curve of each generator are k1 L2d at its reported wavenumbers, and for white noise the expectation of the ordinate below the Nyquist wavenumber is k1 times the expectation of one spectrum estimate, for every number of realizations. With independent noise of mean 0 and variance 1 every such point converges to this value with probability one as the number of realizations grows. Without realizations nothing is drawn, and a generator with a single point along the first direction raises ValueError.", "quantifier": "for all pairs of generators, numbers of realizations, positions and white-noise streams", "why_tests_cant": "an expectation over random fields and an almost sure limit", "anchors": ["drdmannturb/fluctuation_generation/low_frequency/large_plot.py::recreate_fig2", "drdmannturb/fluctuation_generation/low_frequency/fluctuation_field_generator.py::LowFreqGenerator.compute_spectrum"]}
{"id": "C114", "title": "What the TensorBoard log of a fit and its figure contain", "statement": "After evaluations that returned, the logged series of each loss term is exactly its recorded history at the evaluations in which the term was enabled, with the steps passed, and logging never changes a result. For a fit that returned, the misfit series has one value more than the closure was evaluated, at steps 0, 0, 1, 2, ..., the coherence series lacks the initial evaluation, and the shares (each the moving average of a term over the sum of the averages; between 0 and 1, with sum 1) begin with the third evaluation. plot_loss_logs raises ValueError exactly on an empty log and TypeError exactly on a log with a single tag, and otherwise draws one panel per tag in reverse order of first appearance, without the first two values of each; so the j-th drawn value belongs to evaluation j+2 for the misfit, j+3 for the coherence and j+4 for the shares. After a fit with positive initial misfit and finite losses it raises exactly when no other term is enabled and the closure ran at most once. An evaluation that raises because of NaN leaves a NaN in the log and nothing in the histories. plot_losses(run) draws the log of file number run of the logging directory, counting from the end if negative, and raises IndexError for other numbers.", "quantifier": "for all sequences of evaluations, configurations, optimisers, objects and logs", "why_tests_cant": "quantifies over run lengths, optimisers and configurations", "anchors": ["drdmannturb/spectra_fitting/loss_functions.py::LossAggregator.eval", "drdmannturb/spectra_fitting/loss_functions.py::LossAggregator.log_component_ratios", "drdmannturb/common.py::plot_loss_logs", "drdmannturb/spectra_fitting/calibration.py::CalibrationProblem.calibrate", "drdmannturb/spectra_fitting/calibration.py::CalibrationProblem.plot_losses"]}
{"id": "C115", "title": "get_current_loss_info", "statement": "After any sequence of evaluations, some of which may have raised, get_current_loss_info does not raise. It is empty exactly when no evaluation returned; otherwise its total is the value of the last evaluation that returned and the sum of the last recorded terms, its averages are the exponential moving averages of the recorded misfits and coherence losses, and its ratio is their quotient with the coherence average replaced by 1e-8 if smaller, hence 10^8 times the average misfit without coherence data.", "quantifier": "for all sequences of evaluations and configurations", "why_tests_cant": "quantifies over call histories with failures", "anchors": ["drdmannturb/spectra_fitting/loss_functions.py::LossAggregator.get_current_loss_info"]}
{"id": "C116", "title": "The generated turbulence has no preferred lateral direction", "statement": "With any covariance, without low-frequency part, more than one cell across and independent noise of a symmetric law without atoms, the field returned by any call after any calls has the same law as its mirror image: grid points reflected across, lateral component negated. So with probability one the long-run block averages of products of deviations from the mean wind agree at mirrored points up to the sign given by the lateral components, and in the vertical plane in the middle of the domain the lateral component is uncorrelated with the other two.", "quantifier": "for all covariances, arguments, call histories, profiles, numbers of blocks and symmetric atomless noise laws", "why_tests_cant": "equality of probability laws of whole fields and almost sure limits", "anchors": ["drdmannturb/fluctuation_generation/fluctuation_field_generator.py::FluctuationFieldGenerator.generate", "drdmannturb/fluctuation_generation/covariance_kernels.py::MannCovariance.precompute_Spectrum", "drdmannturb/fluctuation_generation/covariance_kernels.py::VonKarmanCovariance.precompute_Spectrum", "drdmannturb/fluctuation_generation/nn_covariance.py::NNCovariance.precompute_Spectrum", "drdmannturb/fluctuation_generation/sampling_methods.py::Sampling_VF_FFTW"]}
{"id": "C117", "title": "Symmetries of the covariance of sampled vector fields", "statement": "On grids of odd sizes, white noise and any covariance give a field whose lateral component is uncorrelated with the other two at points of the same lateral position. The von Karman field on a cube is isotropic as far as the grid allows: its two-point covariance is invariant under all 48 symmetries of the cube, acting on points and components; in particular the three components have equal variance and are uncorrelated at each point.", "quantifier": "for all odd grids, white noises, covariances and their parameters, pairs of points and symmetries", "why_tests_cant": "expectations over random fields for all grids", "anchors": ["drdmannturb/fluctuation_generation/covariance_kernels.py::VonKarmanCovariance.precompute_Spectrum", "drdmannturb/fluctuation_generation/covariance_kernels.py::MannCovariance.precompute_Spectrum", "drdmannturb/fluctuation_generation/sampling_methods.py::Sampling_VF_FFTW", "drdmannturb/fluctuation_generation/gaussian_random_fields.py::GaussianRandomField.sample"]}
{"id": "C118", "title": "The default optimiser never makes a fit worse", "statement": "With the default optimiser (LBFGS with strong Wolfe line search), a fit that returns has returned parameters whose objective is at most that of the initial parameters and at most the loss it reports, so a fit that stopped early is below the tolerance at the parameters returned. It evaluates the objective between 1 and max(1, floor(5 wolfe_iter_count / 4) - 1) + 26 times per epoch (50 for the default). Its search directions are downhill for the gradients it is given, and where no gradient component exceeds 1e-7 it leaves the parameters as they are; but where the objective grows along its first direction (gradients ignore coherence data) it stays put and reports the loss of another, worse point.", "quantifier": "for all finite objectives, gradient rules, learning rates, iteration counts, optimiser histories and fits that return", "why_tests_cant": "quantifies over objective functions and unbounded optimiser histories; the line search branches on real values", "anchors": ["drdmannturb/spectra_fitting/calibration.py::CalibrationProblem.calibrate", "drdmannturb/parameters.py::ProblemParameters"]}
{"id": "C119", "title": "Predicted spectra far outside the fitted range", "statement": "For a constant, two-thirds, Mann, approximated Mann (slope not positive) or non-degenerate ReLU network lifetime and a bounded energy spectrum there is a wavenumber from which on the predicted uu, vv, ww, vw and uv spectra are exactly k1 times 1e-12 times the area of the integration square (4e-6 k1 with the default grid), and uw is at most twice that in size: the predictions grow with k1 and follow the floor, not the -2/3 law. At the other end, with a Mann lifetime or a ReLU network of exponent -1/3 the predicted ww spectrum on every fixed integration grid of the kind the constructor builds exceeds a positive multiple of 1/k1 at all small k1, hence tends to infinity as k1 falls to zero, although the integral it approximates (C94) tends to zero there.", "quantifier": "for all parameters, lifetime models, energy spectra and integration grids", "why_tests_cant": "limits at both ends of the wavenumber axis", "anchors": ["drdmannturb/spectra_fitting/one_point_spectra.py::OnePointSpectra.forward", "drdmannturb/spectra_fitting/one_point_spectra.py::OnePointSpectra.PowerSpectra", "drdmannturb/spectra_fitting/one_point_spectra.py::OnePointSpectra.__init__", "drdmannturb/spectra_fitting/one_point_spectra.py::OnePointSpectra.quad23"]}
{"id": "C120", "title": "The picture of the low-frequency fields", "statement": "plot_velocity_fields raises RuntimeError on an object without fields and succeeds after every successful generate. The left panel then shows the values of u1 that generate returned and the right one those of u2: the value of grid point (i, j) fills the cell of the user's grid around (i dx, j dy), in kilometres, x to the right and y upwards, and nothing is drawn outside the requested domain, moved by half a cell. A velocity v is drawn in both panels at position 1/2 + v/(2m) of the colour map, m being the largest absolute value of both components: zero in the middle, nothing cut off, one end of the scale reached. If both components vanish, as they do for sigma2 <= 0, everything is drawn in the colour of the lower end. If the requested spacings differ, neighbours along the coarser direction are drawn further apart than they were simulated.", "quantifier": "for all configurations, call histories, random streams, grid points and points of the axes", "why_tests_cant": "quantifies over grids, fields and call histories", "anchors": ["drdmannturb/fluctuation_generation/low_frequency/fluctuation_field_generator.py::LowFreqGenerator.plot_velocity_fields", "drdmannturb/fluctuation_generation/low_frequency/fluctuation_field_generator.py::LowFreqGenerator.generate"]}
{"id": "C121", "title": "The generated field does not depend on the unit of length", "statement": "Expressing the grid dimensions, the reference height, the length scale and the heights of the profile in another unit of length leaves every result of every call of every history unchanged, exceptions included, for all three covariances and without low-frequency part. The unit of velocity does matter: with the reference velocity multiplied by any positive number the same call returns the same fluctuations, of mean square one in every block, on top of the multiplied profile.", "quantifier": "for all units, covariances, arguments, random streams, call histories, profiles and numbers of blocks", "why_tests_cant": "equality of results over all units and call histories", "anchors": ["drdmannturb/fluctuation_generation/fluctuation_field_generator.py::FluctuationFieldGenerator.__init__", "drdmannturb/fluctuation_generation/fluctuation_field_generator.py::FluctuationFieldGenerator.generate", "drdmannturb/fluctuation_generation/fluctuation_field_generator.py::FluctuationFieldGenerator._normalize_block", "drdmannturb/fluctuation_generation/covariance_kernels.py::MannCovariance.precompute_Spectrum", "drdmannturb/fluctuation_generation/covariance_kernels.py::VonKarmanCovariance.precompute_Spectrum", "drdmannturb/fluctuation_generation/nn_covariance.py::NNCovariance.precompute_Spectrum"]}
{"id": "C122", "title": "Small changes of the time scale and the isotropic limit", "statement": "For every history of successful calls and every tolerance, generators of the Mann model whose time scales differ little and lead to the same buffer return fields of the same shape that agree within the tolerance everywhere; the buffer is the same for all slightly smaller time scales and for all slightly larger ones unless three times the product of time and length scale is a whole number of cells. As the time scale tends to zero the fields of the Mann model tend to those of the von Karman model with the same arguments and seed, with probability one for all histories of valid calls.", "quantifier": "for all arguments, random streams, histories of successful calls and tolerances", "why_tests_cant": "limits in a continuous parameter over all call histories", "anchors": ["drdmannturb/fluctuation_generation/fluctuation_field_generator.py::FluctuationFieldGenerator.__init__", "drdmannturb/fluctuation_generation/fluctuation_field_generator.py::FluctuationFieldGenerator.generate", "drdmannturb/fluctuation_generation/covariance_kernels.py::MannCovariance.precompute_Spectrum", "drdmannturb/fluctuation_generation/covariance_kernels.py::VonKarmanCovariance.precompute_Spectrum", "drdmannturb/fluctuation_generation/sampling_methods.py::Sampling_VF_FFTW"]}
{"id": "C123", "title": "Reversed axes of the generated turbulence", "statement": "With independent noise of a symmetric law without atoms, no low-frequency part and more than one cell across, the deviation from the mean wind in every block of the first call keeps its law when the first and third axis together, the second, or all three are reversed along with the components along them, for every covariance; with the von Karman covariance and a blend_num that is odd or not positive, when any axes are reversed. So with probability one the long-run block averages of products of deviations agree at the reversed points up to these signs; for every covariance two components may be exchanged between a point and the opposite one through the centre of the block; and the von Karman field has no vertical flux of momentum half-way up.", "quantifier": "for all covariances, arguments, profiles, blocks, pairs of points and components, and symmetric atomless noise laws", "why_tests_cant": "equality of probability laws of whole blocks and almost sure limits", "anchors": ["drdmannturb/fluctuation_generation/fluctuation_field_generator.py::FluctuationFieldGenerator.generate", "drdmannturb/fluctuation_generation/covariance_kernels.py::MannCovariance.precompute_Spectrum", "drdmannturb/fluctuation_generation/covariance_kernels.py::VonKarmanCovariance.precompute_Spectrum", "drdmannturb/fluctuation_generation/nn_covariance.py::NNCovariance.precompute_Spectrum", "drdmannturb/fluctuation_generation/sampling_methods.py::Sampling_VF_FFTW"]}
{"id": "C124", "title": "Parameters set from a tensor stay tied to it, parameters set from an array do not", "statement": "After problem.parameters has been set from a torch tensor, the parameters of the object equal the contents of that tensor at every later moment, whatever is done to the tensor, to this object (fits that succeed or fail) or to others, until the parameters are set again: in-place edits of the tensor are edits of the model, a fit leaves the fitted vector in the tensor and its returned values are computed from the tensor's entries, and objects set from the same tensor have the same parameters for ever. After the parameters have been set from an array, or just after construction, nothing done to tensors or other objects changes them and fits of the object change no tensor and no other object. A vector of the wrong length is refused with ValueError and changes nothing, ties included.", "quantifier": "for all objects, tensors, vectors, optimisers and sequences of commands", "why_tests_cant": "aliasing over all interleavings of edits and fits of several objects", "anchors": ["drdmannturb/spectra_fitting/calibration.py::CalibrationProblem.parameters", "drdmannturb/spectra_fitting/calibration.py::CalibrationProblem.calibrate", "drdmannturb/spectra_fitting/calibration.py::CalibrationProblem.log_dimensional_scales"]}
{"id": "C125", "title": "The array returned by generate is the object's own field", "statement": "generate returns the array that is the object's field, a new one unless no block was asked for. Arrays returned earlier are never changed by later calls, successful or not. An edit of the latest returned array persists: the next call returns the edited field followed by exactly the planes it would have appended without the edit, or raises exactly when it would have. Edits of any other array are not noticed. Edits never disturb the generation: after any mixture of calls and edits the object is the one that the calls alone produce, but for the contents of the field, which has the same shape.", "quantifier": "for all generators, histories of calls and edits, profiles, numbers of blocks and edited contents", "why_tests_cant": "aliasing over all interleavings of calls and edits", "anchors": ["drdmannturb/fluctuation_generation/fluctuation_field_generator.py::FluctuationFieldGenerator.generate"]}
{"id": "C126", "title": "Fitted spectra and the unit of length", "statement": "Expressing length scale (times t), magnitude (times t^(4/3)) and wavenumbers (divided by t) in another unit of length multiplies the spectral tensor a configuration stands for by t^5 and its exact spectra k1 F(k1) over corresponding squares by t^2, as their dimensions require, for every lifetime model and energy spectrum; the same holds for the computed vv and ww spectra when the transverse grid is expressed in the new unit and the floor acts in neither, and for uu up to the contribution of the grid node along the wind, where this entry is zero by incompressibility so that the floor always acts. With the grid the constructor builds (the same numbers in every unit) and the fixed floor 1e-12 it does not hold: at one physical wavenumber and with one set of physical parameters the ww prediction of the Mann model, converted back, tends to infinity as the unit shrinks (at least like t^2) and as it grows (where it is exactly the contribution of the floor, of order t^-3).", "quantifier": "for all parameters, lifetime models, energy spectra, grids, wavenumbers and units", "why_tests_cant": "limits over all units of length; equality of improper quantities over all parameters", "anchors": ["drdmannturb/spectra_fitting/one_point_spectra.py::OnePointSpectra.forward", "drdmannturb/spectra_fitting/one_point_spectra.py::OnePointSpectra.PowerSpectra", "drdmannturb/spectra_fitting/one_point_spectra.py::OnePointSpectra.__init__", "drdmannturb/spectra_fitting/one_point_spectra.py::OnePointSpectra.quad23", "drdmannturb/spectra_fitting/calibration.py::CalibrationProblem.log_dimensional_scales"]}
{"id": "C127", "title": "Mean and covariances of the wind with a low-frequency model", "statement": "Let the generator's own noise be independent values of a symmetric law without atoms and, independently of it, numpy's global stream uncorrelated values of mean zero and variance one. Attaching a low-frequency model then leaves the expected wind at every point of every call the mean wind profile. The covariance of the wind at two points is the one without low-frequency model plus the covariance of the interpolated low-frequency field at the points they are mapped to. At every point the variance grows by at least nothing and at most the variance of a low-frequency grid value: by all of it at nodes of the low-frequency grid, by nothing beyond the grid and in the vertical component. Over the blocks of one long call the wind at a point of the block averages to the profile with probability one. Over repeated calls of one block it does not: the average tends to the profile plus the low-frequency field of the first block, whose mean square is positive when the model fits the box.", "quantifier": "for all arguments, low-frequency configurations, noise laws, call histories, pairs of points and components", "why_tests_cant": "expectations and almost sure limits over all noise laws and call histories", "anchors": ["drdmannturb/fluctuation_generation/fluctuation_field_generator.py::FluctuationFieldGenerator.generate", "drdmannturb/fluctuation_generation/fluctuation_field_generator.py::FluctuationFieldGenerator.__init__", "drdmannturb/fluctuation_generation/low_frequency/fluctuation_field_generator.py::LowFreqGenerator.generate", "drdmannturb/fluctuation_generation/low_frequency/fluctuation_field_generator.py::LowFreqGenerator.interp_slice"]}
{"id": "C128", "title": "Momentum fluxes of the wind with a low-frequency model", "statement": "With uncorrelated global noise of variance one, exchanging the places of two points of the generated low-frequency field along either axis leaves the covariance of equal components and reverses the sign of the covariance of the two different components; so these are uncorrelated at any two points on a common grid line, in particular at every point. Consequently, in the setting of the property before, attaching a low-frequency model to the generator changes no covariance in which the vertical component takes part, and none of the two horizontal components at points that share their place along the wind within their calls or their lateral position: all momentum fluxes at a point stay those of the small-scale model.", "quantifier": "for all arguments, low-frequency configurations, noise laws, call histories and pairs of points", "why_tests_cant": "exact covariances over all noise laws and configurations", "anchors": ["drdmannturb/fluctuation_generation/fluctuation_field_generator.py::FluctuationFieldGenerator.generate", "drdmannturb/fluctuation_generation/low_frequency/fluctuation_field_generator.py::LowFreqGenerator.generate", "drdmannturb/fluctuation_generation/low_frequency/fluctuation_field_generator.py::LowFreqGenerator.interp_slice"]}
{"id": "C129", "title": "Reseeding the random numbers of a generator", "statement": "generator.RF.reseed(seed) before the first block gives the object built with that seed. After blocks have been drawn it replaces the values still to be drawn and nothing else: a program of generate and reseed calls returns what the generate calls alone return from the sequence of values used, and the field collected so far stays. The noise array stays too: the next block is correlated from an array that begins with all but the first Nx planes of the old one, so the seed alone does not determine it. Two objects with the same arguments but other seeds and histories, reseeded alike after at least one block, append the same planes from the block on by which all old planes have left the array; if the array has m Nx planes, the planes appended from block m - 1 after the reseeding on are those a new object with that seed returns from its first block on. Reseeding with values independent of the old ones changes no probability: with probability one everything returned is what an object that is never reseeded returns from a stream of the same law, and no call with valid profile arguments raises.", "quantifier": "for all arguments, seeds, random streams, programs of calls and reseedings, profiles and numbers of blocks", "why_tests_cant": "equality of results over all interleavings of calls and reseedings, and of probability laws", "anchors": ["drdmannturb/fluctuation_generation/gaussian_random_fields.py::GaussianRandomField.reseed", "drdmannturb/fluctuation_generation/gaussian_random_fields.py::GaussianRandomField.sample_noise", "drdmannturb/fluctuation_generation/fluctuation_field_generator.py::FluctuationFieldGenerator.generate", "drdmannturb/fluctuation_generation/fluctuation_field_generator.py::FluctuationFieldGenerator._generate_block"]}
{"id": "C130", "title": "What evaluate_divergence shows on generated wind", "statement": "On the field of the object evaluate_divergence succeeds exactly when three spacings are given and wind was generated, and raises ValueError otherwise; for a copy of the field passed explicitly every generator reports the same; finite mean winds give a finite field. The wind profile arguments of a call do not matter for the divergence of finite fields except in the two planes on either side of where the new planes join the earlier field, where the divergence changes by the change of the mean wind over twice the spacing. Without low-frequency part, with at least one grid level and with blend_num odd or not positive, the turbulence of every block is the grid values of a smooth divergence-free field, a finite sum of plane waves with distinct wavevectors below the grid's limit pi/h; with the grid's spacing h the divergence reported at inner points of a block is at most the sum over the waves of h^2 |k|^3 |A| / 6 and so of second order in h. It is not zero for that: with independent noise without atoms the reported divergence is with probability one different from zero at every inner point of every block, for every non-zero spacing.", "quantifier": "for all arguments, covariances, profiles, spacings, noise laws, blocks and grid points", "why_tests_cant": "existence of a smooth field, error bounds for all grids, almost sure statements", "anchors": ["drdmannturb/fluctuation_generation/fluctuation_field_generator.py::FluctuationFieldGenerator.evaluate_divergence", "drdmannturb/fluctuation_generation/fluctuation_field_generator.py::FluctuationFieldGenerator.generate", "drdmannturb/fluctuation_generation/sampling_methods.py::Sampling_VF_FFTW"]}
{"id": "C131", "title": "The magnitude of a fit", "statement": "Multiplying the magnitude by a factor above one multiplies every predicted spectrum uu, vv, ww by at most that factor and, of the share of the prediction not due to the 1e-12 floor, by all of it; where the floor acts only at the grid node along the wind, vv and ww have no share due to it and uu that of the single node, and all shares tend to zero as the magnitude grows. Without coherence data and penalties the loss is therefore a parabola of curvature one in the logarithm of the magnitude, up to an error set by the largest share, and multiplying all data and the magnitude by one factor changes the root of the loss by no more than that error. Where no small change of the magnitude alone lowers the loss, in particular at the best parameters, the fit has no bias: the mean logarithm of prediction over data, weighted by the share not due to the floor, is zero, so the plain mean is at most the largest share of the floor times the root mean square; regularisation may be on.", "quantifier": "for all configurations, lifetime models, energy spectra, grids, data, parameter vectors and factors", "why_tests_cant": "optimality condition over all parameters; inequalities between losses for all data and factors", "anchors": ["drdmannturb/spectra_fitting/calibration.py::CalibrationProblem.calibrate", "drdmannturb/spectra_fitting/loss_functions.py::LossAggregator.eval", "drdmannturb/spectra_fitting/one_point_spectra.py::OnePointSpectra.forward", "drdmannturb/spectra_fitting/one_point_spectra.py::OnePointSpectra.quad23"]}
{"id": "C132", "title": "Two-point covariances of the sampled field in large boxes", "statement": "For fixed grid spacings, as the number of points grows in every direction (even or odd, with the box no longer than a fixed multiple of its width and height), the covariance of any two components at any two points of a given displacement tends to the cell volume over (2 pi)^3 times the Fourier integral, over the wavevectors resolved by the spacings, of the isotropic von Karman tensor for the von Karman generator, of the tensor the fitter with the same scales and the Mann lifetime stands for for the Mann generator, and of the sheared tensor with the network's lifetime for the trained generator; the tensors are integrable there although they are unbounded at the origin. In particular the variances tend to the integral of the tensor, and points far apart in any direction become uncorrelated. The trained generator needs a network with continuous activations whose modulus is at least a multiple of the input's and an exponent of at least -1/3 (the default), or an exponent of at least 2/3.", "quantifier": "for all scales, spacings, box sizes, white noise laws, displacements and components", "why_tests_cant": "limit over boxes of an expectation over the random input", "anchors": ["drdmannturb/fluctuation_generation/sampling_methods.py::Sampling_VF_FFTW.__call__", "drdmannturb/fluctuation_generation/covariance_kernels.py::MannCovariance.precompute_Spectrum", "drdmannturb/fluctuation_generation/covariance_kernels.py::VonKarmanCovariance.precompute_Spectrum", "drdmannturb/fluctuation_generation/nn_covariance.py::NNCovariance.precompute_Spectrum"]}
{"id": "C133", "title": "The wind returned in large boxes", "statement": "For fixed spacings of the periodic grid, independent standard normal noise, a bounded blending width and a box no longer than a fixed multiple of its width and height: as the grid levels grow, the turbulence in each returned block (the block minus the mean wind) agrees, up to any relative tolerance at all its points and with probability as close to one as wanted, with a jointly normal field of mean zero. The covariance of that field at any two points of the block of a given displacement tends to the Fourier integral of the model's spectral tensor over the resolved wavevectors divided by a third of the integral of its trace. This limit does not contain the friction velocity, the spectrum amplitude (or fitted magnitude) or the cell volume: the division by the block's root mean square removes them, whatever block is drawn. It holds for the von Karman model, the Mann model and the trained networks that property C132 admits, whose length and time scales (and reference height, for the network) remain.", "quantifier": "for all scales, spacings, box sizes, blending widths, random streams, call histories, blocks, displacements and tolerances", "why_tests_cant": "convergence in probability over boxes of fields obtained from random input", "anchors": ["drdmannturb/fluctuation_generation/fluctuation_field_generator.py::FluctuationFieldGenerator.generate", "drdmannturb/fluctuation_generation/fluctuation_field_generator.py::FluctuationFieldGenerator._normalize_block", "drdmannturb/fluctuation_generation/sampling_methods.py::Sampling_VF_FFTW.__call__", "drdmannturb/fluctuation_generation/covariance_kernels.py::MannCovariance.precompute_Spectrum", "drdmannturb/fluctuation_generation/covariance_kernels.py::VonKarmanCovariance.precompute_Spectrum", "drdmannturb/fluctuation_generation/nn_covariance.py::NNCovariance.precompute_Spectrum"]}
{"id": "C134", "title": "Refining the grid", "statement": "The correlations of the returned turbulence do not depend on the grid in the limit of fine grids. For every displacement in space and every tolerance there is a spacing such that on all grids with finer spacings, for all displacements of whole cells close to the given one, the turbulence in each returned block is, from some grid levels on and with probability as close to one as wanted, a jointly normal field whose covariance at two points of that displacement is the Fourier integral of the model's spectral tensor over all wavevectors divided by a third of the integral of its trace; these integrals are finite. This holds for the von Karman model, the Mann model and the trained networks that property C132 admits. The variances of the three components in the limit have mean one, and the correlations tend to zero with the displacement. For the von Karman model the limit is isotropic (turning or reflecting the displacement turns the correlations), its components at one point are uncorrelated with unit variance, and it depends on the displacement only relative to the length scale.", "quantifier": "for all scales, spacings, grid levels, blending widths, random streams, call histories, blocks, displacements, rotations and tolerances", "why_tests_cant": "double limit over grids and boxes of fields obtained from random input", "anchors": ["drdmannturb/fluctuation_generation/fluctuation_field_generator.py::FluctuationFieldGenerator.generate", "drdmannturb/fluctuation_generation/fluctuation_field_generator.py::FluctuationFieldGenerator._normalize_block", "drdmannturb/fluctuation_generation/sampling_methods.py::Sampling_VF_FFTW.__call__", "drdmannturb/fluctuation_generation/covariance_kernels.py::MannCovariance.precompute_Spectrum", "drdmannturb/fluctuation_generation/covariance_kernels.py::VonKarmanCovariance.precompute_Spectrum", "drdmannturb/fluctuation_generation/nn_covariance.py::NNCovariance.precompute_Spectrum"]}
{"id": "C135", "title": "Coherence of the generated field and the fitted coherence", "statement": "On grids of odd transverse sizes with white noise, the cross spectrum between two lines along the wind of the sampled field is, at every resolved wavenumber, the sum of the kernel's spectral tensor over the transverse wavenumbers with the phase of the separation. The squared coherence formed from it lies between 0 and 1 and is 1 for a line with itself; lines at the complementary separation across the periodic box are exactly as coherent. As the box grows in the transverse directions the coherence of lines a fixed number of cells apart tends to the coherence of the model's spectral tensor cut off at pi over the spacings, for the von Karman, Mann and network kernels (networks with continuous activations that map no nonzero wavevector to zero). With transverse spacings pi L0 / 10^p2 it is, to any tolerance plus four times 1e-32 times the area over the integral (the effect of the floor in the fit), the value SpectralCoherence of the fitter with the Mann lifetime and the same scales predicts for each component on fine enough quadrature grids.", "quantifier": "for all scales, spacings, box sizes, white noise laws, lines, separations, wavenumbers, components and tolerances", "why_tests_cant": "limit over boxes and quadrature grids of ratios of expectations over the random input", "anchors": ["drdmannturb/fluctuation_generation/sampling_methods.py::Sampling_VF_FFTW.__call__", "drdmannturb/spectra_fitting/one_point_spectra.py::OnePointSpectra.SpectralCoherence", "drdmannturb/fluctuation_generation/covariance_kernels.py::MannCovariance.precompute_Spectrum", "drdmannturb/fluctuation_generation/covariance_kernels.py::VonKarmanCovariance.precompute_Spectrum", "drdmannturb/fluctuation_generation/nn_covariance.py::NNCovariance.precompute_Spectrum"]}
{"id": "C136", "title": "Rounding errors of the energy spectra and the von Karman kernel", "statement": "Take any arithmetic in which every operation has relative error at most u, rounding commutes with negation, library functions have relative error at most v >= u, and nothing overflows or underflows; write e = -log(1-v). For every positive argument x with |log x| <= R and e <= 1/100, VKEnergySpectrum, VKLike_EnergySpectrum and Learnable_EnergySpectrum have relative errors at most exp(n e) - 1 with n = 18+6R, 28+14R and 3+2|q|. For L > 0, E0 >= 0 and e <= 1 every entry of the von Karman kernel has relative error at most exp((22+5R) e) - 1, R bounding |log L| and log(1 + L^2 |k|^2). The computed kernel is exactly antisymmetric and exactly odd in the wavevector, and the product of the wavevector with each column is at most u times the computed prefactor times |k|^2. Rounding in the Fourier transform is not covered. In exact arithmetic the rounded spectra (positive argument) and kernel (L > 0, E0 >= 0) are those of the model.", "quantifier": "for all such arithmetics, positive arguments, exponents, length scales, magnitudes and wavevectors", "why_tests_cant": "rounding errors over all arguments and all floating point formats", "anchors": ["drdmannturb/common.py::VKEnergySpectrum", "drdmannturb/common.py::VKLike_EnergySpectrum", "drdmannturb/common.py::Learnable_EnergySpectrum", "drdmannturb/fluctuation_generation/covariance_kernels.py::VonKarmanCovariance.precompute_Spectrum"]}
{"id": "C137", "title": "Rounding errors of the vertical spectrum", "statement": "In the arithmetic of the previous property, on an increasing grid and for k1 > 0, the computed ww spectrum differs from the exact one by a relative error at most exp(((3G+4)(8+R)(1+3B) + 2d) e) - 1, in whatever order the terms of torch.trapz are added (nested at most d deep). R bounds the absolute logarithms of the length scale and of the scaled distorted wavenumbers, B the lifetimes, G is 14 for the von Karman spectrum and |p| + 2|q| + 2 for the learnable one. Required: 16 (8+R)(1+3B) e <= 1, finite lifetimes, and lifetimes computed with error at most (7+R) e in the logarithm; CONST and TWOTHIRD meet the last. In exact arithmetic the error is zero. uu, vv and uw are not covered.", "quantifier": "for all such arithmetics, parameters, increasing grids, positive wavenumbers, energy spectra, lifetimes and orders of summation meeting the stated bounds", "why_tests_cant": "worst-case rounding error over all parameters and summation orders", "anchors": ["drdmannturb/spectra_fitting/one_point_spectra.py::OnePointSpectra.forward", "drdmannturb/spectra_fitting/one_point_spectra.py::OnePointSpectra.PowerSpectra", "drdmannturb/spectra_fitting/one_point_spectra.py::OnePointSpectra.quad23", "drdmannturb/spectra_fitting/one_point_spectra.py::OnePointSpectra.EddyLifetime", "drdmannturb/spectra_fitting/one_point_spectra.py::OnePointSpectra.exp_scales", "drdmannturb/common.py::VKLike_EnergySpectrum"]}
{"id": "C138", "title": "Rounding errors of the normalised block and the mean wind", "statement": "In the same arithmetic, whenever _normalize_block succeeds and in whatever order numpy adds (nested at most d deep), every value divided by the standard deviation has relative error at most exp((d+6)/2 e) - 1, the lateral and vertical components of the returned block have relative error at most exp((d+8)/2 e) - 1, a streamwise component y with exact mean wind U computed to within delta is off by at most exp(e) ((exp((d+6)/2 e) - 1)|y - U| + delta) + (exp(e) - 1)|y|, and the mean square of the scaled block lies between exp(-(d+6)e) and exp((d+6)e). For positive z, zref and uref power_law has relative error at most exp((|alpha|+2) e) - 1. For z >= 0, 0 < z0 < zref, uref > 0, D = log(zref/z0) >= 2e and N = log(z/z0+1), log_law differs from the exact value by at most (uref/D) 2e + (exp((4+2/D) e) - 1)(uref/D)(N+2e). In exact arithmetic, above the ground and for such zref, uref and z0, the rounded block with its mean wind is the block returned.", "quantifier": "for all such arithmetics, blocks, orders of summation, heights, exponents and reference values meeting the stated bounds", "why_tests_cant": "worst-case rounding error over all blocks and summation orders", "anchors": ["drdmannturb/fluctuation_generation/fluctuation_field_generator.py::FluctuationFieldGenerator._normalize_block", "drdmannturb/fluctuation_generation/fluctuation_field_generator.py::FluctuationFieldGenerator.log_law", "drdmannturb/fluctuation_generation/fluctuation_field_generator.py::FluctuationFieldGenerator.power_law"]}
{"id": "C139", "title": "Rounding errors of the loss", "statement": "In the arithmetic of property C136 and in whatever order torch adds (nested at most d deep): for model and data tensors of equal shape without zeros and with at least one entry, if every prediction has the sign of the exact one and differs from it by a factor between exp(-a) and exp(a), the computed MSE term is not negative and its root differs from the root r of the exact one by at most (exp((d+4)/2 e) - 1) r + exp((d+4)/2 e)(a + e). For the mean squared coherence misfit, if every modelled coherence is off by at most delta, the same holds with delta in place of a + e. The regularisation term, for beta_reg >= 0 and at least one parameter, has relative error at most exp((d+3) e) - 1. The slope penalties and the sum of all terms follow in C146.", "quantifier": "for all such arithmetics, predictions, data, parameter vectors and orders of summation meeting the stated bounds", "why_tests_cant": "worst-case rounding error over all data and summation orders", "anchors": ["drdmannturb/spectra_fitting/loss_functions.py::LossAggregator.MSE_term", "drdmannturb/spectra_fitting/loss_functions.py::LossAggregator.CoherenceLoss", "drdmannturb/spectra_fitting/loss_functions.py::LossAggregator.Regularization"]}
{"id": "C140", "title": "Symmetries of the kernels hold exactly in floating point arithmetic", "statement": "In every arithmetic whose rounding commutes with negation and keeps zero, also when intermediate results overflow to infinity, become NaN or underflow, and for arbitrary implementations of sqrt, powers, hyp2f1 and the network: the real factor of the square-root tensor computed by the von Karman, Mann and network kernels changes sign exactly when the wavevector is negated, so the computed tensors at k and -k are exact complex conjugates; and when only the lateral wavenumber is negated, exactly the entries with both or no lateral index change sign and the others stay. For negation, arctan2 must be odd in its first argument, and where k1 is not zero and the computed numerator is zero the computed denominator must not be negative. Zeros carry no sign in the model. With exact arithmetic the computed kernels are those of the exact model.", "quantifier": "for all such arithmetics, library functions, wavevectors (including zero components), scales and networks", "why_tests_cant": "bitwise statement over all floating point inputs and formats", "anchors": ["drdmannturb/fluctuation_generation/covariance_kernels.py::VonKarmanCovariance.precompute_Spectrum", "drdmannturb/fluctuation_generation/covariance_kernels.py::MannCovariance.precompute_Spectrum", "drdmannturb/fluctuation_generation/nn_covariance.py::NNCovariance.precompute_Spectrum"]}
{"id": "C141", "title": "Rounding errors of the sampled field", "statement": "Let one call of the vector sampler be carried out with Fourier transforms whose root mean square error is at most eta times the root mean square of their output, with sums of three products accurate to epsilon relative to the sum of their moduli, with a final division of relative accuracy nu, and with a half spectrum whose Frobenius distance from the exact one is at most kappa times the norm of the exact one at every wavevector. Then the Euclidean distance, over all points and components, between the returned and the exact field is at most (1+eta)^2 (1+kappa)(1+epsilon)(1+nu) - 1 times the largest Frobenius norm of the kernel times the Euclidean norm of the noise over the square root of the cell volume; the exact field itself is at most that large. For the von Karman generator with the kernel computed as in property C136 from frequencies with relative errors between exp(-a) and exp(a), 1+kappa is exp((24+5R)e + 4a) and the largest norm is at most sqrt(E0 L^(11/3)/(2 pi)). Dividing a block by its root mean square sigma turns an error D of the block into one of at most 2D/sigma. The accuracy of the transforms is an assumption.", "quantifier": "for all grids, noise arrays, kernels, scales and computed arrays of the stated accuracy", "why_tests_cant": "worst-case rounding error over all inputs; implementation of the transform not fixed", "anchors": ["drdmannturb/fluctuation_generation/sampling_methods.py::Sampling_VF_FFTW.__call__", "drdmannturb/fluctuation_generation/covariance_kernels.py::VonKarmanCovariance.precompute_Spectrum", "drdmannturb/fluctuation_generation/fluctuation_field_generator.py::FluctuationFieldGenerator._normalize_block"]}
{"id": "C142", "title": "Opposite sides of a generated block", "statement": "The field a block is cut from is periodic, and margins and buffer are all that separates a block from its copies. For any two points of a block, moving one of them by whole periods along the wind leaves them at least 6 T L and one cell apart, moving it across or upwards at least 2 L and one cell (L, T the length and time scale, for trained models those of the fit). For white noise, before the division by the root mean square, two pairs of points of any blocks whose displacements differ by whole periods have equal covariances. So in a domain wider than its two margins the two lateral faces are correlated exactly as two lines 2 n_margin_y + 1 cells apart, that is between 2 L and one cell and 2 L and three cells, however wide the domain is; likewise bottom and top.", "quantifier": "for all constructor arguments with positive dimensions and scales, all models, blocks, points, components and white noise laws", "why_tests_cant": "expectation over noise laws, all domain sizes", "anchors": ["drdmannturb/fluctuation_generation/fluctuation_field_generator.py::FluctuationFieldGenerator.__init__", "drdmannturb/fluctuation_generation/fluctuation_field_generator.py::FluctuationFieldGenerator._generate_block", "drdmannturb/fluctuation_generation/sampling_methods.py::Sampling_VF_FFTW.__call__"]}
{"id": "C143", "title": "Rounding errors of the sheared kernels", "statement": "In the arithmetic of property C136, with arctan2 of relative error at most v: the square-root tensors of the Mann and DRD kernels involve differences of numbers of similar size, so single entries have no small relative error, but the whole matrix does. If the lifetime b is computed with an error of a factor between exp(-a) and exp(a) and 416 (1+|b|)^2 (a + 2e) <= 1, every entry of the computed matrix differs from the exact one by at most 16 (1+|b|)^2 (exp(484 (1+|b|)^2 (a+2e) + (9+5R)e) - 1) times the Frobenius norm of the exact matrix at the same wavevector, for every wavevector, on the axes and arbitrarily close to them; R bounds |log L| and log(1 + L^2 |k0|^2). The Mann lifetime meets this with a = (7+R)e + w if hyp2f1 is computed with an error of a factor between exp(-w) and exp(w) and R also bounds |log(L^2 |k|^2)|. The field sampled with such a kernel satisfies the bound of property C141 with kappa = 48 B^2 (exp(484 B^2 (a+2e) + (11+5R)e) - 1), B - 1 bounding the lifetimes on the grid. Wavenumbers are taken as the code computes them. In exact arithmetic the rounded kernel, for every lifetime and for that of Mann, is the kernel of the model.", "quantifier": "for all such arithmetics, wavevectors, scales, lifetimes, grids and noise arrays meeting the stated bounds", "why_tests_cant": "worst-case rounding error with cancellation, over all wavevectors and formats", "anchors": ["drdmannturb/fluctuation_generation/covariance_kernels.py::MannCovariance.precompute_Spectrum", "drdmannturb/fluctuation_generation/nn_covariance.py::NNCovariance.precompute_Spectrum", "drdmannturb/fluctuation_generation/sampling_methods.py::Sampling_VF_FFTW.__call__"]}
{"id": "C144", "title": "Rounding errors of all fitted spectra", "statement": "In the arithmetic of property C136, with atan2 of relative error at most v: let the integration grid be increasing and inside [-r, r], k1 > 0, R a bound of |log L| and of |log(L |k0|)| for the distorted wavevectors of the grid, B a bound of the lifetimes, the lifetimes computed with at most 7 + R units of error e, and 416 (1+B)^2 (9+R) e <= 1. In whatever order torch adds (nested at most d deep), each of the six spectra that a forward pass returns at k1 differs from the exact one by at most 513 (1+B)^4 (exp(((4G + 940)(1+B)^2 (9+R) + 2d) e) - 1) times the sum of the three exact auto spectra, where G is 14 for the von Karman energy spectrum and |p| + 2|q| + 2 for the learnable one; for uw the signed floor, which jumps at zero, adds at most 12e-12 k1 r^2. The lifetimes of types MANN and MANN_APPROX are computed with at most 12 + W + R and 3 + |c|(6 + 7R) + 2|i| units of error, W units being the error of hyp2f1 and c, i the regression coefficients (the types CONST and TWOTHIRD are in property C137, TAUNET in property C152), R then also bounding |log(L |k|)|. In exact arithmetic the rounded evaluation is the evaluation of the model.", "quantifier": "for all such arithmetics, parameters, grids, frequencies and orders of summation meeting the stated bounds", "why_tests_cant": "worst-case rounding error with cancellation, over all parameters and summation orders", "anchors": ["drdmannturb/spectra_fitting/one_point_spectra.py::OnePointSpectra.forward", "drdmannturb/spectra_fitting/one_point_spectra.py::OnePointSpectra.PowerSpectra", "drdmannturb/spectra_fitting/one_point_spectra.py::OnePointSpectra.quad23", "drdmannturb/common.py::MannEddyLifetime", "drdmannturb/common.py::Mann_linear_exponential_approx"]}
{"id": "C145", "title": "Rounding errors of the generated wind field", "statement": "In the arithmetic of property C136, for a generator without low-frequency part, any earlier calls that returned and any call that returns: in every new block the values computed with rounding differ from those computed exactly from the same random numbers, in the root mean square over the block, by at most (exp((d/2+4)e) - 1) + (exp(e) - 1) U + exp(e) P + 2 (F - 1) B / |w|. Here numpy adds nested at most d deep, U bounds the mean wind, P its error; |w| is the Euclidean norm of the exact block before normalisation, B the bound of property C141 for the norm of the whole sampled field, and F = (1+eta)^2 (1+kappa)(1+epsilon)(1+nu) exp(19e/2) with the accuracies of property C141, the last factor being the errors of periods, transform norm, noise scale and noise. For the von Karman kernel, with the frequencies as computed, (1+kappa) exp(19e/2) is exp((139/2+5R)e). The power law with exponent alpha > 0 has P = (exp((4 alpha+2)e) - 1) U with U its value at the top (if 0**alpha is 0); the logarithmic law with 0 < z0 < zref, D = log(zref/z0) >= 2e, N = log(d3/z0+1) has U = uref N/D and P = (uref/D) 5e + (exp((4+2/D)e) - 1)(uref/D)(N+5e). The sizes of grid, buffer and margins are assumed to be computed without error (property C153 says when), and the computed block not to vanish. With exact operations and transforms, for a power law with positive exponent or a logarithmic law with 0 < z0 < zref, the rounded von Karman wind is exactly the field returned.", "quantifier": "for all such arithmetics, constructor arguments with positive dimensions and scales, random streams, call histories, profiles, blocks and orders of summation", "why_tests_cant": "worst-case rounding error through the whole generator over all inputs and call sequences", "anchors": ["drdmannturb/fluctuation_generation/fluctuation_field_generator.py::FluctuationFieldGenerator.generate", "drdmannturb/fluctuation_generation/fluctuation_field_generator.py::FluctuationFieldGenerator._generate_block", "drdmannturb/fluctuation_generation/fluctuation_field_generator.py::FluctuationFieldGenerator._normalize_block", "drdmannturb/fluctuation_generation/sampling_methods.py::Sampling_VF_FFTW.__call__", "drdmannturb/fluctuation_generation/sampling_methods.py::Sampling_method_freq", "drdmannturb/fluctuation_generation/fluctuation_field_generator.py::FluctuationFieldGenerator.log_law", "drdmannturb/fluctuation_generation/fluctuation_field_generator.py::FluctuationFieldGenerator.power_law"]}
{"id": "C146", "title": "Rounding errors of the penalties and of the total loss", "statement": "In the arithmetic of property C136 and in whatever order torch adds (nested at most d deep): let the wavenumbers be positive with |log k| <= K and logarithmic steps of at least h, the exact predictions nonzero with |log|y|| <= Y, the computed predictions of the same sign within a factor exp(+-a), and the computed steps positive for certain. Then every computed log-log slope and curvature is within an explicit bound of the exact one (single precision, a = 0.001, K = Y = 10, h = 0.3: 0.009 and 0.09). The computed penalties, the coherence term and the total are never negative. The root of the computed total differs from the root of the value eval returns in exact arithmetic by at most (exp((d+12)e/2) - 1) times that root plus exp((d+12)e/2) times the Euclidean norm of the four errors a + e, sqrt(gamma) delta, sqrt(alpha1/zref) times the slope error, sqrt(alpha2)/zref times the curvature error, where delta bounds the errors of the predicted coherences and terms with a coefficient that is not positive drop out. The same holds for each penalty and the coherence term alone, and for a fit without network and coherence data. In exact arithmetic the rounded loss is the value returned by eval, whatever the order of the sums.", "quantifier": "for all such arithmetics, shapes, grids, predictions, targets, coherences, parameters, coefficients, positive reference heights and orders of summation", "why_tests_cant": "worst-case rounding error over all tensors and summation orders", "anchors": ["drdmannturb/spectra_fitting/loss_functions.py::LossAggregator.Pen1stOrder", "drdmannturb/spectra_fitting/loss_functions.py::LossAggregator.Pen2ndOrder", "drdmannturb/spectra_fitting/loss_functions.py::LossAggregator.CoherenceLoss", "drdmannturb/spectra_fitting/loss_functions.py::LossAggregator.eval"]}
{"id": "C147", "title": "Rounding errors of the Mann and DRD wind fields", "statement": "In the arithmetic of property C136 with arctan2 of the same accuracy, the bound of property C145 for the wind field of a Mann or DRD generator can be worked out from the arguments of its constructor. If on the grid of exact frequencies the lifetimes are at most B - 1 in absolute value, |log L|, |log(k^2 L^2)| off the origin and log(1+L^2 k0^2) are at most R, and the library's hyp2f1 is accurate to a factor exp(+-omega), then for the Mann kernel the computed spectrum at the computed frequencies has the relative error kappa = 48 B^2 (exp(484 B^2 ((63+R)e + omega) + (11+5R)e) - 1), provided 416 B^2 ((63+R)e + omega) <= 1, and the bound of property C141 for the sampled field holds with M = 24 B^3 sqrt(E0 L^(11/3)/(4 pi)); so the computed block is within the bound of property C145 with these numbers. For any lifetimes computed with relative error alpha, as those of the DRD generator, (25+R)e + omega is replaced by alpha. Double precision, B = 10, R = 20, omega = 1e-14: kappa is at most 1.4e-5. With exact operations, transforms and hyp2f1, for the mean winds named in property C145, the rounded Mann wind is exactly the field returned.", "quantifier": "for all such arithmetics, constructor arguments with positive dimensions and scales, random streams, call histories, profiles, blocks and orders of summation", "why_tests_cant": "worst-case rounding error through the whole generator over all inputs, including wavevectors close to the axes where the kernel cancels", "anchors": ["drdmannturb/fluctuation_generation/covariance_kernels.py::MannCovariance.precompute_Spectrum", "drdmannturb/fluctuation_generation/nn_covariance.py::NNCovariance.precompute_Spectrum", "drdmannturb/fluctuation_generation/sampling_methods.py::Sampling_method_freq", "drdmannturb/fluctuation_generation/fluctuation_field_generator.py::FluctuationFieldGenerator.generate"]}
{"id": "C148", "title": "Rounding errors of the predicted coherence", "statement": "In the arithmetic of property C136, with atan2 and the modulus of a complex number of relative error at most v and cosine and sine of absolute error at most v: let the stored coherence grid be increasing with at least two points, k1 > 0, R, B, G and the accuracy of the lifetimes as in property C144 on this grid, and |k2 r| <= rho for all grid points k2. Let S be the integral of the density of one component (cut below at 1e-32) over the grid, T the sum of the three integrals, and Y = 513 (1+B)^4 (exp(((4G + 940)(1+B)^2 (9+R) + 2d + rho) e) - 1) T/S. In whatever order torch adds (nested at most d deep), if Y <= 1/2 the coherence that SpectralCoherence computes for this component at k1 and separation r differs from the exact one by at most 31 Y. This is the error delta of property C146. The error may grow with rho: rounding the products k2 r alone shifts the phases. In exact arithmetic the rounded evaluation is the evaluation of the model.", "quantifier": "for all such arithmetics, parameters, grids, wavenumbers, separations, components and orders of summation meeting the stated bounds", "why_tests_cant": "worst-case rounding error of a quotient of oscillating integrals, over all parameters and summation orders", "anchors": ["drdmannturb/spectra_fitting/one_point_spectra.py::OnePointSpectra.SpectralCoherence", "drdmannturb/spectra_fitting/one_point_spectra.py::OnePointSpectra._PowerSpectra_coherence", "drdmannturb/spectra_fitting/one_point_spectra.py::OnePointSpectra._quad23_coherence"]}
{"id": "C149", "title": "Rounding errors of the low-frequency field", "statement": "In the arithmetic of property C136, with cosine and sine of relative error at most v, evaluating the expressions as written: let LowFreqGenerator have positive L_2d <= 1e6, factors and sigma2, let integrate.quad be accurate to a factor exp(+-q), the transforms to eta in the root mean square and the complex products with the noise to epsilon, let the rounded constructor arrive at the same numbers of grid points as the exact one, the buffered domain be at most 1e9 long, exp(-R) <= 1/L_2d^2, 1/L_2d^2 + 2 (pi/dx)^2 <= exp(R) and (100+3R) e <= 1. Then both arrays that generate returns have the shape asked for, and together they differ from those computed exactly from the same noise by at most ((1+eta)^2 (1+epsilon) exp(q/2 + (116+2R) e) - 1) M |w| in the Euclidean norm, where |w| is the norm of the noise and M |w|, with M = 2 pi/sqrt(max(dx dy, 1e-16)) sqrt(sqrt(2) c L_2d^(8/3)/pi), bounds the exact arrays themselves. The rounded constructor does not raise if quad returns at least 1e-16 as rounded, e <= 1e-7 and 4e times each of the lengths L1_factor L_2d, L2_factor L_2d, 5 L_2d is at most 1e-9. In exact arithmetic the rounded constructor and generate are those of the model.", "quantifier": "for all such arithmetics, constructor arguments, random streams and stream positions meeting the stated bounds", "why_tests_cant": "worst-case rounding error through constructor, spectrum and transforms over all inputs", "anchors": ["drdmannturb/fluctuation_generation/low_frequency/fluctuation_field_generator.py::LowFreqGenerator.__init__", "drdmannturb/fluctuation_generation/low_frequency/fluctuation_field_generator.py::LowFreqGenerator._calculate_buffer_sizes", "drdmannturb/fluctuation_generation/low_frequency/fluctuation_field_generator.py::LowFreqGenerator._compute_c", "drdmannturb/fluctuation_generation/low_frequency/fluctuation_field_generator.py::LowFreqGenerator.generate"]}
{"id": "C150", "title": "Rounding errors of the interpolated low-frequency part", "statement": "Between the first and the last nodes of the low-frequency grid the field that is interpolated onto the turbulence box is continuous: values at two points differ by at most D (|x-x'|/dx + |y-y'|/dy), D the largest difference of neighbouring grid values. In an arithmetic whose operations have relative error at most e <= 1/100, with np.linspace evaluated as written and scipy's sum of four weighted values accurate to epsilon relative to the sum of their moduli: all nodes are within 17 e times the extent of the low-frequency domain of their exact place (the extent itself being known to a relative error e), the planes of block i within 17 e times the distance from the inflow to the end of the stretch, the lateral places within 17 e times the two widths. If the grid values, at most M, are known to mu, positions to delta1, delta2 < 1/2 cells, and the point lies between first and last nodes both exactly and as computed, the value added differs from the exact one by at most (1+2kappa)^2 (mu + epsilon (M+mu)) + D (4 (delta1+delta2) + 2 kappa + 2 kappa^2), kappa = exp(3e) - 1, also when rounding puts the point into the neighbouring cell. Beyond the computed last node exactly zero is added, so at that edge rounding may decide between a value and zero.", "quantifier": "for all such arithmetics, generators, grids, fields, blocks and points meeting the stated bounds", "why_tests_cant": "worst-case rounding error including the choice of the cell, over all positions and fields", "anchors": ["drdmannturb/fluctuation_generation/low_frequency/fluctuation_field_generator.py::LowFreqGenerator.interp_slice", "drdmannturb/fluctuation_generation/low_frequency/fluctuation_field_generator.py::LowFreqGenerator.__init__", "drdmannturb/fluctuation_generation/fluctuation_field_generator.py::FluctuationFieldGenerator.generate"]}
{"id": "C151", "title": "Rounding errors of the wind field with a low-frequency part", "statement": "Attaching a low-frequency model to a generator adds the interpolated low-frequency part to the first two components of every returned value and changes nothing else, for every state of the random streams; calls that return with it return without it. In the arithmetic of property C136: if the block without that part is computed with an error of at most E in the root mean square over the block (properties C145 and C147), and the parts to be added with an error of at most Q (property C150), the returned block differs from the exact one in the root mean square by at most (1+e)(E+Q) + e (1+U+V), where U bounds the mean wind and V the low-frequency part. Q is worked out for plane r, column b of block i of a call: positions are known to 17 e N1 max(1, (i+1) d1/L1) and 17 e N2 (1 + d2/L2) cells of the low-frequency grid. With exact operations and transforms, for the mean winds named in property C145, the rounded wind plus the exact low-frequency parts is exactly the field returned.", "quantifier": "for all such arithmetics, constructor arguments with positive dimensions and scales, low-frequency configurations, random streams, call histories, profiles and blocks", "why_tests_cant": "worst-case rounding error through both generators over all inputs and call sequences", "anchors": ["drdmannturb/fluctuation_generation/fluctuation_field_generator.py::FluctuationFieldGenerator.generate", "drdmannturb/fluctuation_generation/fluctuation_field_generator.py::FluctuationFieldGenerator._normalize_block", "drdmannturb/fluctuation_generation/low_frequency/fluctuation_field_generator.py::LowFreqGenerator.interp_slice"]}
{"id": "C152", "title": "Rounding errors of the eddy lifetime network", "statement": "In the arithmetic of property C136, with sums of a layer and of the norm formed in any order nested at most d deep and elementwise activations that vanish at zero, do not increase distances and are themselves not rounded (such as ReLU): each entry of the computed output of a TauNet with n linear layers differs from the exact one by at most exp((n(d+1)+1)e) - 1 times the entry of the network with the moduli of the weights and without activations. Let m be the norm of the exact output at the wavevector k h, let the norm of the network with the moduli be at most rho m (rho = 1 if no weight is negative; for a ReLU network whose output vanishes at the origin only, one rho serves all wavevectors), |log m| and log(1+m^2) at most R, wavenumbers known to a factor exp(+-t), c = t + (n(d+1) + (d+7)/2) e and rho c <= 1/3. Then the lifetime that the DRD generator computes lies within a factor exp(+-((|nu|+2)(4 rho c + (2R+6) e) + e)) of the exact one; at the zero wavevector both are zero. With t = 9e this is the accuracy alpha of the lifetimes in property C147, so that the bound for the DRD wind field holds from the weights of the network on. In the fit the lifetimes of type TAUNET are computed with at most N = (|nu|+2)(4 rho (n(d+1) + (d+9)/2) + 2R + 6) + 3 units e of relative error, and the bound of property C144 for the six spectra holds with an R of at least N - 7. In exact arithmetic, whatever the activations, the rounded network and the two lifetimes are those of the model. With exact transforms too, and a network that does not vanish on the grid, the rounded DRD wind is exactly the field returned.", "quantifier": "for all such arithmetics, networks, weights, wavevectors, exponents nu and orders of summation, and for the wind field all constructor arguments, random streams and call histories of property C147", "why_tests_cant": "worst-case rounding error over all weights, depths and summation orders, including networks that cancel", "anchors": ["drdmannturb/nn_modules.py::TauNet.forward", "drdmannturb/nn_modules.py::TauNet._mlp_forward", "drdmannturb/nn_modules.py::Rational.forward", "drdmannturb/fluctuation_generation/nn_covariance.py::NNCovariance.precompute_Spectrum", "drdmannturb/spectra_fitting/one_point_spectra.py::OnePointSpectra.EddyLifetime"]}
{"id": "C153", "title": "Rounding errors of buffer and margin sizes", "statement": "In the arithmetic of property C136, for positive dimensions, length and time scales as the constructor holds them: let x be the exact quotient 3 T L / dx for the buffer, L / dy and L / dz for the margins, and delta 4e for the buffer, 2e for the margins. The computed number of planes, the ceiling of the quotient computed with rounding, is at least one, at least x exp(-delta) and less than x exp(delta) + 1. It is the number of exact arithmetic unless an integer lies within x (exp(delta) - 1) of x, and differs from it by at most one if x (exp(delta) - 1) < 1. The exception is needed: there are arithmetics of arbitrarily small rounding error in which a quotient that is an integer gives one plane more. In exact arithmetic the computed numbers are those of the generator.", "quantifier": "for all such arithmetics and all constructor arguments with positive dimensions and scales", "why_tests_cant": "discontinuous function of rounded arguments over all inputs and formats", "anchors": ["drdmannturb/fluctuation_generation/fluctuation_field_generator.py::FluctuationFieldGenerator.__init__"]}
