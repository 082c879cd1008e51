import Verif.Model.OnePointState
import Verif.Model.Loss
import Verif.Model.Data

/-!
# `CalibrationProblem` (`spectra_fitting/calibration.py`)

Parameter vector, constructor, training loop, saving, plotting and learning-rate schedules.  Printing, timing and
TensorBoard output are not modelled.  The optimiser (torch) is an arbitrary adversary: in every epoch it evaluates the
closure at an arbitrary finite list of parameter vectors and leaves an arbitrary parameter vector behind.
-/

namespace Verif
open Fl

noncomputable section

/-! ### Parameter vector -/

/-- Walk of `vector_to_parameters` over tensors given by their rows: consecutive pieces of the vector, each as long as
the tensor it replaces. -/
def fillRows {α : Type} : List (List α) → List α → List (List α)
  | [], _ => []
  | t :: ts, v => v.take t.length :: fillRows ts (v.drop t.length)

/-- Same walk over weight matrices (row-major `view_as`). -/
def fillMats {α : Type} : List (List (List α)) → List α → List (List (List α))
  | [], _ => []
  | W :: Ws, v => fillRows W (v.take W.flatten.length) :: fillMats Ws (v.drop W.flatten.length)

/-- `parameters_to_vector(tauNet.parameters())`: weights layer by layer, then `Ra.nu` if it is an `nn.Parameter`
(nn_modules.py L41-45, L148-161). -/
def TauNet.paramVec (learnNu : Bool) (net : TauNet) : List ℝ :=
  (net.linears.map List.flatten).flatten ++ (if learnNu then [net.nu] else [])

/-- `vector_to_parameters(v, tauNet.parameters())`. -/
def TauNet.setVec (learnNu : Bool) (v : List ℝ) (net : TauNet) : TauNet :=
  { net with
    linears := fillMats net.linears v
    nu := if learnNu then (v.drop (net.linears.map List.flatten).flatten.length).headD net.nu else net.nu }

/-- The `parameters` property (getter), calibration.py L150-172.  `nn.Module.parameters()` yields the module's own
parameters in registration order (one_point_spectra.py L144-150), then those of the submodule `tauNet`. -/
def OPS.paramVec (learnNu : Bool) (s : OPS) : List ℝ :=
  [s.logL, s.logT, s.logM] ++
    (match s.sp with
      | .learnable p q => [p, q]
      | .vkLike => []) ++
    (match s.kind with
      | .taunet net => net.paramVec learnNu
      | _ => [])

/-- Number of scalar parameters in front of the network. -/
def OPS.headLen (s : OPS) : ℕ := match s.sp with
  | .learnable _ _ => 5
  | .vkLike => 3

/-- `vector_to_parameters(v, OPS.parameters())`. -/
def OPS.setVec (learnNu : Bool) (v : List ℝ) (s : OPS) : OPS :=
  { s with
    logL := v.getD 0 s.logL
    logT := v.getD 1 s.logT
    logM := v.getD 2 s.logM
    sp := match s.sp with
      | .learnable p q => .learnable (v.getD 3 p) (v.getD 4 q)
      | .vkLike => .vkLike
    kind := match s.kind with
      | .taunet net => .taunet (net.setVec learnNu (v.drop s.headLen))
      | k => k }

/-- The `parameters` setter, calibration.py L174-196. -/
def OPS.setParameters (learnNu : Bool) (v : List ℝ) (s : OPS) : Except PyErr Unit × OPS :=
  if v.length ≠ (s.paramVec learnNu).length then (.error .valueError, s) else (.ok (), s.setVec learnNu v)

/-! ### Constructor -/

/-- `EddyLifetimeType` members (enums.py L6-9). -/
inductive EddyName where
  | twothird
  | taunet
  | mann
  | mannApprox
  | const
  deriving DecidableEq

/-- `str(member)` of the enumeration (used in the file name, calibration.py L700). -/
def EddyName.str : EddyName → String
  | .twothird => "EddyLifetimeType.TWOTHIRD"
  | .taunet => "EddyLifetimeType.TAUNET"
  | .mann => "EddyLifetimeType.MANN"
  | .mannApprox => "EddyLifetimeType.MANN_APPROX"
  | .const => "EddyLifetimeType.CONST"

/-- Fields of `NNParameters` (parameters.py L162-194) read by the fitting code. -/
structure NNCfg where
  nlayers : Option Int
  hidden : SizesArg

/-- Fields of `ProblemParameters` (parameters.py L15-71) that are modelled. -/
structure ProbCfg where
  nc : Int
  tol : ℝ
  nepochs : ℕ
  initWithNoise : Bool
  eddy : EddyName
  learnNu : Bool
  learnable : Bool
  p : ℝ
  q : ℝ

/-- Fields of `PhysicalParameters` (parameters.py L74-126) that are modelled. -/
structure PhysCfg where
  L : ℝ
  Gamma : ℝ
  sigma : ℝ
  Uref : ℝ
  zref : ℝ
  ustar : ℝ
  factor : ℝ

/-- The `ops_*` fields of `IntegrationParameters` (parameters.py L272-294). -/
structure IntegCfg where
  logMin : ℝ
  logMax : ℝ
  points : ℕ

/-- Default `IntegrationParameters()`. -/
def IntegCfg.default : IntegCfg := ⟨-3, 3, 100⟩

/-- Random initial network: weights for the given `(in, out)` shapes and the value of `nu` (nn_modules.py L148-169;
the values are arbitrary, only the shapes matter). -/
structure NetSeed where
  weights : List (Nat × Nat) → List (List (List ℝ))
  nu : ℝ

/-- The network part of `OnePointSpectra.__init__` (one_point_spectra.py L90-99): only `TAUNET` builds a network, with
ReLU activations (`activations` and `hidden_layer_sizes` of `NNParameters` are not passed). -/
def buildKind (nn : NNCfg) (prob : ProbCfg) (seed : NetSeed) : Except PyErr EddyKind :=
  match prob.eddy with
  | .twothird => .ok .twothird
  | .mann => .ok .mann
  | .mannApprox => .ok .mannApprox
  | .const => .ok .const
  | .taunet =>
    match tauNetInit nn.nlayers nn.hidden .none with
    | .error e => .error e
    | .ok shapes => .ok (.taunet
        { linears := seed.weights shapes
          activations := List.replicate (shapes.length - 1) reluVec
          nu := if prob.learnNu then seed.nu else -1 / 3 })

/-- `initialize_parameters_with_noise`, calibration.py L209-218: overwrites every parameter with `|noise|`, then fails:
`OPS.tauNet` exists only for `TAUNET`, and `OPS.Corrector` never exists. -/
def initNoise (learnNu : Bool) (noise : List ℝ) (s : OPS) : Except PyErr Unit × OPS :=
  let s := s.setVec learnNu (noise.map fun x => |x|)
  match s.kind with
  | .taunet net => (.error .attributeError, { s with kind := .taunet (net.setVec learnNu noise) })
  | _ => (.error .attributeError, s)

open Classical in
/-- `CalibrationProblem.__init__`, calibration.py L93-132 (`nn = none` models `nn_params=None`;
`deviceOk = false` a device string that `torch.device` rejects).  The result is the `OPS` attribute. -/
def calibInit (hyp : ℝ → ℝ) (deviceOk : Bool) (nn : Option NNCfg) (prob : ProbCfg) (phys : PhysCfg) (integ : IntegCfg)
    (seed : NetSeed) (noise : List ℝ) : Except PyErr OPS :=
  if !deviceOk then .error .runtimeError else
  if ¬ (prob.nc = 3 ∨ prob.nc = 4 ∨ prob.nc = 6) then .error .valueError else
  match nn with
  | none => .error .attributeError
  | some nn =>
    -- asserts of one_point_spectra.py L86-88 come before the network is built
    if ¬ (0 < phys.L ∧ 0 < phys.Gamma ∧ 0 < phys.sigma) then .error .assertionError else
    match buildKind nn prob seed with
    | .error e => .error e
    | .ok kind =>
      match OPS.init hyp kind (if prob.learnable then .learnable prob.p prob.q else .vkLike) phys.L phys.Gamma
          phys.sigma integ.logMin integ.logMax integ.points none with
      | .error e => .error e
      | .ok s =>
        match (if prob.initWithNoise then initNoise prob.learnNu noise s else (.ok (), s)) with
        | (.error e, _) => .error e
        | (.ok _, s) => s.logDimensionalScales phys.L phys.Gamma phys.sigma

/-! ### Model coherence at the data frequencies -/

/-- `full = ones(n); full[mask] = values`. -/
def maskFill {α : Type} (one : α) : List Bool → List α → List α
  | [], _ => []
  | false :: m, v => one :: maskFill one m v
  | true :: m, x :: v => x :: maskFill one m v
  | true :: m, [] => one :: maskFill one m []

open Classical in
/-- `_compute_model_coherence`, calibration.py L551-582. -/
def computeModelCoherence (phys : PhysCfg) (freqs seps : List ℝ) : OPSM (List (List (List Fl))) := fun s =>
  let mask := freqs.map fun f => decide (1e-6 < f)
  let nonzero := freqs.filter fun f => decide (1e-6 < f)
  let k1 := nonzero.map fun f => phys.factor * f / phys.Uref
  match OPS.SpectralCoherence k1 seps s with
  | (.error e, s) => (.error e, s)
  | (.ok model, s) => (.ok (model.map fun c => c.map fun row => maskFill (fin 1) mask row), s)

/-! ### Training -/

/-- Coherence data selected for the fit (calibration.py L321-345). -/
structure CohFit where
  freqs : List ℝ
  seps : List ℝ
  dataU : List (List Fl)
  dataV : List (List Fl)
  dataW : List (List Fl)

/-- Everything fixed during one `calibrate` call. -/
structure TrainCfg where
  prob : ProbCfg
  phys : PhysCfg
  loss : LossParams
  k1s : List ℝ
  /-- `y_data[self.curves]` -/
  target : List (List Fl)
  coh : Option CohFit

/-- Mutable state of a `calibrate` call.  `epochLoss` is a ghost record of `self.loss` after every optimiser step;
`lrEvents` records every reduction of the learning rate (epoch, factor). -/
structure TrainState where
  ops : OPS
  agg : LossState
  loss : Fl
  eCount : ℕ
  epochLoss : List Fl
  lrEvents : List (ℕ × ℝ)

/-- A step that may raise; the state survives the exception. -/
abbrev TrainM (α : Type) := TrainState → Except PyErr α × TrainState

/-- `gen_theta_NN`, calibration.py L424-430. -/
def genTheta (cfg : TrainCfg) (s : OPS) : Theta :=
  match s.kind with
  | .taunet net => .vec ((net.paramVec cfg.prob.learnNu).map fin)
  | _ => .scalar

/-- The coherence dictionary of the closure, L455-466. -/
def closureCoherence (cfg : TrainCfg) (s : OPS) : Except PyErr (Option CohData) × OPS :=
  match cfg.coh with
  | none => (.ok none, s)
  | some c =>
    match computeModelCoherence cfg.phys c.freqs c.seps s with
    | (.error e, s) => (.error e, s)
    | (.ok m, s) => (.ok (some ⟨m.getD 0 [], m.getD 1 [], m.getD 2 [], c.dataU, c.dataV, c.dataW⟩), s)

/-- One evaluation of the closure at parameter vector `θ`, calibration.py L443-489. -/
def closure (cfg : TrainCfg) (θ : List ℝ) : TrainM Fl := fun st =>
  let ops := st.ops.setVec cfg.prob.learnNu θ
  match OPS.forward cfg.k1s ops with
  | (.error e, ops) => (.error e, { st with ops })
  | (.ok y, ops) =>
    match closureCoherence cfg ops with
    | (.error e, ops) => (.error e, { st with ops })
    | (.ok coh, ops) =>
      match lossEval cfg.loss cfg.k1s cfg.phys.zref ⟨y.take cfg.prob.nc.toNat, cfg.target, genTheta cfg ops, coh⟩ st.agg with
      | (.error e, agg) => (.error e, { st with ops, agg })
      | (.ok l, agg) => (.ok l, { st with ops, agg, loss := l, eCount := st.eCount + 1 })

/-- Several closure evaluations in a row; an exception aborts the step. -/
def closures (cfg : TrainCfg) : List (List ℝ) → TrainM Unit
  | [], st => (.ok (), st)
  | θ :: θs, st =>
    match closure cfg θ st with
    | (.error e, st) => (.error e, st)
    | (.ok _, st) => closures cfg θs st

/-- Behaviour of the optimiser in one epoch: the points at which it evaluates the closure, and the parameters it leaves. -/
structure OptStep where
  queries : List (List ℝ)
  final : List ℝ

open Classical in
/-- Body of the epoch loop, calibration.py L491-538.  `true` = leave the loop (loss below tolerance).
`should_adjust_learning_rate(epoch)` uses its default window 50 (loss_functions.py L535). -/
def runEpoch (cfg : TrainCfg) (epoch : ℕ) (o : OptStep) : TrainM Bool := fun st =>
  match closures cfg o.queries st with
  | (.error e, st) => (.error e, st)
  | (.ok _, st) =>
    let st := { st with ops := st.ops.setVec cfg.prob.learnNu o.final, epochLoss := st.epochLoss ++ [st.loss] }
    -- L503-507: `OPS.p_exponent` exists only with a learnable spectrum
    if ¬ cfg.prob.learnable then (.error .attributeError, st) else
    -- L509
    if ¬ st.loss.IsFin then (.error .runtimeError, st) else
    -- L512
    if Fl.lt st.loss (fin cfg.prob.tol) then (.ok true, st) else
    -- L517
    if epoch % 50 = 0 then
      match shouldAdjust st.agg epoch 50 with
      | .error e => (.error e, st)
      | .ok adv =>
        match adv.factor with
        | none => (.ok false, st)
        | some f => (.ok false, { st with lrEvents := st.lrEvents ++ [(epoch, f)] })
    else (.ok false, st)

/-- Epochs `e, e+1, ..., e+n-1`. -/
def runEpochs (cfg : TrainCfg) (opt : ℕ → OptStep) : ℕ → ℕ → TrainM Unit
  | _, 0, st => (.ok (), st)
  | e, n + 1, st =>
    match runEpoch cfg e (opt e) st with
    | (.error err, st) => (.error err, st)
    | (.ok true, st) => (.ok (), st)
    | (.ok false, st) => runEpochs cfg opt (e + 1) n st

/-- `calibrated_params`, calibration.py L545-556: L, Γ, σ and, if learnable, p and q. -/
structure Calibrated where
  L : ℝ
  Gamma : ℝ
  sigma : ℝ
  pq : Option (ℝ × ℝ)

/-- The returned dictionary from the parameter vector. -/
def calibratedParams (learnable : Bool) (v : List ℝ) : Calibrated :=
  ⟨Real.exp (v.getD 0 0), Real.exp (v.getD 1 0), Real.exp (v.getD 2 0),
    if learnable then some (v.getD 3 0, v.getD 4 0) else none⟩

/-- State right after the initial loss evaluation (calibration.py L388-436); the initial evaluation passes no coherence
data. -/
def calibrateStart (cfg : TrainCfg) (ops : OPS) : Except PyErr Unit × TrainState :=
  let st : TrainState := ⟨ops, LossState.init, fin 0, 0, [], []⟩
  let r : Except PyErr Unit × OPS := match cfg.coh with
    | none => (.ok (), ops)
    | some c => match computeModelCoherence cfg.phys c.freqs c.seps ops with
      | (.error e, ops) => (.error e, ops)
      | (.ok _, ops) => (.ok (), ops)
  match r with
  | (.error e, ops) => (.error e, { st with ops })
  | (.ok _, ops) =>
    match OPS.forward cfg.k1s ops with
    | (.error e, ops) => (.error e, { st with ops })
    | (.ok y, ops) =>
      match lossEval cfg.loss cfg.k1s cfg.phys.zref ⟨y.take cfg.prob.nc.toNat, cfg.target, genTheta cfg ops, none⟩ st.agg with
      | (.error e, agg) => (.error e, { st with ops, agg })
      | (.ok l, agg) => (.ok (), { st with ops, agg, loss := l })

/-- `calibrate`, calibration.py L264-549, for an arbitrary optimiser. -/
def calibrate (cfg : TrainCfg) (opt : ℕ → OptStep) (ops : OPS) : Except PyErr Calibrated × TrainState :=
  match calibrateStart cfg ops with
  | (.error e, st) => (.error e, st)
  | (.ok _, st) =>
    match runEpochs cfg opt 1 cfg.prob.nepochs st with
    | (.error e, st) => (.error e, st)
    | (.ok _, st) => (.ok (calibratedParams cfg.prob.learnable (st.ops.paramVec cfg.prob.learnNu)), st)

/-- `num_trainable_params`, calibration.py L614-635. -/
def numTrainableParams (learnNu : Bool) (s : OPS) : Except PyErr ℕ :=
  match s.kind with
  | .taunet net => .ok (net.paramVec learnNu).length
  | _ => .error .valueError

/-! ### Saving -/

/-- Content of a saved file (calibration.py L703-712). -/
structure Saved where
  nn : NNCfg
  prob : ProbCfg
  loss : LossParams
  phys : PhysCfg
  vec : List ℝ

/-- A directory argument: a `pathlib.Path` or a plain string. -/
inductive DirArg where
  | path (p : String)
  | str (p : String)

/-- Files by name, and which names are directories. -/
structure FS where
  files : String → Option Saved
  isDir : String → Bool

/-- `save_model`, calibration.py L690-714.  (`os.makedirs` is idealised: the parent directory exists afterwards.) -/
def saveModel (saveDir outDir : Option DirArg) (x : Saved) (fs : FS) : Except PyErr String × FS :=
  match (match saveDir with | some d => some d | none => outDir) with
  | none => (.error .valueError, fs)
  | some (.path p) =>
    if fs.isDir p then
      let f := p ++ "/" ++ x.prob.eddy.str ++ ".pkl"
      (.ok f, { fs with files := fun g => if g = f then some x else fs.files g })
    else (.error .valueError, fs)
  | some (.str p) =>
    let f := p ++ "/" ++ x.prob.eddy.str ++ ".pkl"
    (.ok f, { files := fun g => if g = f then some x else fs.files g, isDir := fun d => if d = p then true else fs.isDir d })

/-- Loading as done by `FluctuationFieldGenerator.__init__` (fluctuation_field_generator.py L133-149): a new
`CalibrationProblem` with default integration parameters, then `parameters = model_params`. -/
def loadModel (hyp : ℝ → ℝ) (seed : NetSeed) (noise : List ℝ) (f : String) (fs : FS) : Except PyErr OPS :=
  match fs.files f with
  | none => .error .fileNotFoundError
  | some x =>
    match calibInit hyp true (some x.nn) x.prob x.phys .default seed noise with
    | .error e => .error e
    | .ok s =>
      match s.setParameters x.prob.learnNu x.vec with
      | (.error e, _) => .error e
      | (.ok _, s) => .ok s

/-! ### Plotting -/

/-- `data_component_map`, calibration.py L779-786: data row used for each model row. -/
def dataComponentMap (nc : ℕ) : Except PyErr (List (ℕ × ℕ)) :=
  if nc = 3 then .ok [(0, 0), (1, 1), (2, 2)]
  else if nc = 4 then .ok [(0, 0), (1, 1), (2, 2), (3, 3)]
  else if nc = 6 then .ok [(0, 0), (1, 1), (2, 2), (3, 3), (4, 5), (5, 4)]
  else .error .valueError

/-- Where the plotted data come from. -/
inductive PlotSource where
  /-- the argument `OPSData` (L793-829) -/
  | argument
  /-- the attribute `self.data` (L831-866) -/
  | stored

/-- Columns concatenated for plotting, calibration.py L793-866. -/
def plotDataVals (src : PlotSource) (nc : ℕ) (ops : List Mat3) : List Fl :=
  let col (i j : Fin 3) : List Fl := ops.map fun m => m i j
  if nc = 3 then col 0 0 ++ col 1 1 ++ col 2 2
  else if nc = 4 then col 0 0 ++ col 1 1 ++ col 2 2 ++ col 0 2
  else match src with
    | .argument => col 0 0 ++ col 1 1 ++ col 2 2 ++ col 0 2 ++ col 0 1 ++ col 1 2
    | .stored => col 0 0 ++ col 1 1 ++ col 2 2 ++ col 0 2 ++ col 1 2 ++ col 0 1

/-- The six panels: model row and (when available) data row, with the sign flip of panel 3 (L868-923). -/
def plotPanels (src : PlotSource) (nc : ℕ) (ustar : ℝ) (ops : List Mat3) (model : List (List Fl)) :
    Except PyErr (List (List Fl × Option (List Fl))) :=
  match dataComponentMap nc with
  | .error e => .error e
  | .ok m =>
    let flat := (plotDataVals src nc ops).map fun x => x / fin (ustar ^ 2)
    let rows := viewRows nc (flat.length / nc) flat
    .ok ((List.range 6).map fun i =>
      let sign : ℝ := if i = 3 then -1 else 1
      ((model.getD i []).map fun x => fin sign * x,
        (m.lookup i).map fun d => (rows.getD d []).map fun x => fin sign * x))

/-! ### Learning-rate schedules -/

open Classical in
/-- `get_three_phase_scheduler`: the factor at `epoch`, calibration.py L1251-1271. -/
def threePhase (nepochs epoch : ℝ) : ℝ :=
  if epoch < nepochs * 0.3 then 1.0 * 2.0
  else if epoch < nepochs * 0.7 then 1.0 * (2.0 - (epoch - nepochs * 0.3) / (nepochs * 0.4))
  else 1.0 * 0.1

/-- `self.loss_history`: lists `ops`, `coherence`, `total`. -/
structure LossHistory where
  ops : List ℝ
  coherence : List ℝ
  total : List ℝ

/-- Mean of the last five entries (`np.mean(l[-5:])`). -/
def meanLast5 (l : List ℝ) : ℝ := (pySlice l (some (-5)) none).sum / ((pySlice l (some (-5)) none).length : ℝ)

open Classical in
/-- `get_adaptive_multi_scheduler`: the factor at `epoch`, calibration.py L1278-1292. -/
def adaptiveFactor (h : LossHistory) (epoch : ℤ) : ℝ :=
  if h.total.length < 10 then 1.0
  else
    let ratio := meanLast5 h.ops / (meanLast5 h.coherence + 1e-8)
    if 10 < ratio then 0.5
    else if ratio < 0.1 then 0.5
    else (0.95 : ℝ) ^ (epoch - 10)

/-- Calls that can touch `self.loss_history`: a closure evaluation inside `calibrate` (with the losses it computed) and
the creation of the adaptive scheduler. -/
inductive HistoryCall where
  | closureEval (ops coherence total : ℝ)
  | getAdaptive

/-- `hasattr(self.LossAggregator, "last_component_losses")` (calibration.py L476): no statement of `LossAggregator`
(loss_functions.py) defines this attribute. -/
def aggregatorHasLastComponentLosses : Bool := false

/-- Effect on the attribute (`none` = the attribute does not exist), calibration.py L476-483 and L1275-1276. -/
def HistoryCall.run : HistoryCall → Option LossHistory → Option LossHistory
  | .closureEval o c t, h =>
    if aggregatorHasLastComponentLosses then
      let h := h.getD ⟨[], [], []⟩
      some ⟨h.ops ++ [o], h.coherence ++ [c], h.total ++ [t]⟩
    else h
  | .getAdaptive, h => some (h.getD ⟨[], [], []⟩)

/-! ### Parameter classes that cannot be constructed -/

/-- Sequence arguments of `DomainParameters` (parameters.py L218-219). -/
inductive SeqArg where
  | tuple (n : ℕ)
  | list (n : ℕ)
  | ndarray (n : ℕ)

/-- `DomainParameters.__post_init__`, parameters.py L221-241.  `self.grid_levels` (L232) is the property that reads
`self._grid_levels`, which is assigned only later (L236-238). -/
def domainParametersInit (dims levels : SeqArg) : Except PyErr (SeqArg × SeqArg) := do
  match dims with
    | .list n => if n ≠ 3 then throw PyErr.valueError
    | .ndarray n => if n ≠ 3 then throw PyErr.valueError
    | .tuple _ => pure ()
  let gridLevels : Option SeqArg := none  -- `_grid_levels` is not set yet
  match gridLevels with
    | none => throw PyErr.attributeError
    | some (.list n) => if n ≠ 3 then throw PyErr.valueError
    | some (.ndarray n) => if n ≠ 3 then throw PyErr.valueError
    | some (.tuple _) => pure ()
  return (dims, levels)

/-- Outcome of opening and parsing the data file (polars). -/
inductive CsvFile where
  | missing
  | malformed (e : PyErr)
  | columns (names : List String)

/-- Attributes of a `CustomDataLoader` object when `_load_ops_data` reaches data_generator.py L161: those assigned in
`__init__` and L148.  The class-level annotations (L108-115) create no attributes. -/
def loaderAttributes : List String := ["ops_data_file", "coherence_data_file", "ops_components_ct", "ops_data_df"]

/-- `CustomDataLoader.__init__` and `_load_ops_data`, data_generator.py L117-171. -/
def customDataLoaderInit (f : CsvFile) (ct : Int) : Except PyErr Unit :=
  match f with
  | .missing => .error .fileNotFoundError
  | .malformed e => .error e
  | .columns names =>
    if "uu" ∉ names then .error .valueError
    else if "vv" ∉ names then .error .valueError
    else if "ww" ∉ names then .error .valueError
    else if 3 < ct ∧ "uw" ∉ names then .error .valueError
    else if ct = 6 ∧ "vw" ∉ names then .error .valueError
    else if ct = 6 ∧ "uv" ∉ names then .error .valueError
    -- L161 `len(self.ops_k1_domain)`
    else if "ops_k1_domain" ∉ loaderAttributes then .error .attributeError
    else .ok ()

end
end Verif
