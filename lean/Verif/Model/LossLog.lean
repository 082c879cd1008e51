import Verif.Model.Calibration

/-!
# TensorBoard log of a fit and its display

The `writer` calls of `LossAggregator` (`spectra_fitting/loss_functions.py`), the log that `calibrate` leaves
(`spectra_fitting/calibration.py`), `plot_loss_logs` (`common.py`) and `plot_losses`.

Trusted about TensorBoard: `add_scalar` appends one event; `EventAccumulator` returns the events of a tag in the order in
which they were written, and the tags in the order of their first event (its reservoir keeps 10000 events per tag; longer
logs are not modelled).  Values are stored in the file as single-precision numbers; here they are exact.
-/

namespace Verif
open Fl

noncomputable section

/-- One `writer.add_scalar(tag, value, step)`. -/
structure LogEvent where
  tag : String
  value : Fl
  step : ℕ

/-- A computation that logs and may raise: what was logged before the exception stays in the log. -/
abbrev Logged (α : Type) := Except PyErr α × List LogEvent

open Classical in
/-- `MSE_term` with its log, loss_functions.py L140-151: the value is logged before the NaN check. -/
def mseLog (step : ℕ) (model target : List (List Fl)) : Logged Fl :=
  if sameShape model target then
    let v := flMean (zipFlat (fun m t => Fl.log (Fl.abs (m / t)) * Fl.log (Fl.abs (m / t))) model target)
    (raiseIfNan v, [⟨"MSE Loss", v, step⟩])
  else (.error .runtimeError, [])

open Classical in
/-- `CoherenceLoss` with its log, L323-349: the weighted total, then the three unweighted components. -/
def coherenceLog (p : LossParams) (step : ℕ) (c : CohData) : Logged Fl :=
  if sameShape c.modelU c.dataU ∧ sameShape c.modelV c.dataV ∧ sameShape c.modelW c.dataW then
    let u := msd c.modelU c.dataU
    let v := msd c.modelV c.dataV
    let w := msd c.modelW c.dataW
    let t := fin p.gammaCoherence * ((u + v + w) / fin 3)
    (raiseIfNan t, [⟨"Coherence Loss/Total", t, step⟩, ⟨"Coherence Loss/U-component", u, step⟩,
      ⟨"Coherence Loss/V-component", v, step⟩, ⟨"Coherence Loss/W-component", w, step⟩])
  else (.error .runtimeError, [])

/-- `Pen1stOrder` with its log, L218-232. -/
def pen1Log (p : LossParams) (k1s : List ℝ) (zref : ℝ) (step : ℕ) (y : List (List Fl)) : Logged Fl :=
  if ∀ row ∈ y, row.length = k1s.length then
    let v := fin p.alphaPen1 * flMean ((y.map fun row => (d1logy k1s row).map reluSq).flatten) / fin zref
    (raiseIfNan v, [⟨"1st Order Penalty", v, step⟩])
  else (.error .runtimeError, [])

/-- `Pen2ndOrder` with its log, L176-191. -/
def pen2Log (p : LossParams) (k1s : List ℝ) (zref : ℝ) (step : ℕ) (y : List (List Fl)) : Logged Fl :=
  if ∀ row ∈ y, row.length = k1s.length then
    let v := fin p.alphaPen2 * flMean ((y.map fun row => (d2logy k1s row).map reluSq).flatten) / fin (zref ^ 2)
    (raiseIfNan v, [⟨"2nd Order Penalty", v, step⟩])
  else (.error .runtimeError, [])

/-- `Regularization` with its log, L253-263. -/
def regLog (p : LossParams) (step : ℕ) : Theta → Logged Fl
  | .vec θ =>
    let v := fin p.betaReg * flMean (θ.map fun x => x * x)
    (raiseIfNan v, [⟨"Regularization", v, step⟩])
  | _ => (.error .attributeError, [])

open Classical in
/-- `log_component_ratios`, L472-489 (`sum` of the five running averages in the order of the dictionary). -/
def ratioLog (step : ℕ) (avg : Five Fl) : List LogEvent :=
  if 0 < step then
    let t := avg.mse + avg.coherence + avg.pen1 + avg.pen2 + avg.regularization
    if Fl.lt (fin 0) t then
      [⟨"Component_Ratios/MSE", avg.mse / t, step⟩, ⟨"Component_Ratios/Coherence", avg.coherence / t, step⟩,
        ⟨"Component_Ratios/Penalties", (avg.pen1 + avg.pen2) / t, step⟩,
        ⟨"Component_Ratios/Regularization", avg.regularization / t, step⟩]
    else []
  else []

open Classical in
/-- The four guarded terms of `eval`, L395-420. -/
def cohTermLog (p : LossParams) (step : ℕ) (a : EvalArgs) : Logged Fl :=
  match a.coherence with
  | some c => if 0 < p.gammaCoherence then coherenceLog p step c else (.ok (fin 0), [])
  | none => (.ok (fin 0), [])

open Classical in
@[inherit_doc cohTermLog]
def pen1TermLog (p : LossParams) (k1s : List ℝ) (zref : ℝ) (step : ℕ) (a : EvalArgs) : Logged Fl :=
  if 0 < p.alphaPen1 then pen1Log p k1s zref step a.y else (.ok (fin 0), [])

open Classical in
@[inherit_doc cohTermLog]
def pen2TermLog (p : LossParams) (k1s : List ℝ) (zref : ℝ) (step : ℕ) (a : EvalArgs) : Logged Fl :=
  if 0 < p.alphaPen2 then pen2Log p k1s zref step a.y else (.ok (fin 0), [])

open Classical in
@[inherit_doc cohTermLog]
def regTermLog (p : LossParams) (step : ℕ) (a : EvalArgs) : Logged Fl :=
  match a.theta with
  | .none => (.ok (fin 0), [])
  | θ => if 0 < p.betaReg then regLog p step θ else (.ok (fin 0), [])

/-- `eval` with its log, L382-443: result, state, events in the order of the calls. -/
def lossEvalLog (p : LossParams) (k1s : List ℝ) (zref : ℝ) (step : ℕ) (a : EvalArgs) (s : LossState) :
    (Except PyErr Fl × LossState) × List LogEvent :=
  match mseLog step a.y a.yData with
  | (.error e, l1) => ((.error e, s), l1)
  | (.ok mse, l1) =>
    match cohTermLog p step a with
    | (.error e, l2) => ((.error e, s), l1 ++ l2)
    | (.ok coh, l2) =>
      match pen1TermLog p k1s zref step a with
      | (.error e, l3) => ((.error e, s), l1 ++ l2 ++ l3)
      | (.ok p1, l3) =>
        match pen2TermLog p k1s zref step a with
        | (.error e, l4) => ((.error e, s), l1 ++ l2 ++ l3 ++ l4)
        | (.ok p2, l4) =>
          match regTermLog p step a with
          | (.error e, l5) => ((.error e, s), l1 ++ l2 ++ l3 ++ l4 ++ l5)
          | (.ok reg, l5) =>
            let hist : Five (List Fl) := ⟨s.hist.mse ++ [mse], s.hist.coherence ++ [coh], s.hist.pen1 ++ [p1],
              s.hist.pen2 ++ [p2], s.hist.regularization ++ [reg]⟩
            let avg := updateAverages hist.mse.length s.avg ⟨mse, coh, p1, p2, reg⟩
            let total := mse + coh + p1 + p2 + reg
            ((.ok total, { hist := hist, total := s.total ++ [total], avg := avg }),
              l1 ++ l2 ++ l3 ++ l4 ++ l5 ++ ratioLog step avg)

/-! ### The log of a fit -/

/-- Events of one evaluation of the closure, calibration.py L443-489 (the step is `self.e_count`). -/
def closureLog (cfg : TrainCfg) (θ : List ℝ) (st : TrainState) : List LogEvent :=
  match OPS.forward cfg.k1s (st.ops.setVec cfg.prob.learnNu θ) with
  | (.error _, _) => []
  | (.ok y, ops) =>
    match closureCoherence cfg ops with
    | (.error _, _) => []
    | (.ok coh, ops) =>
      (lossEvalLog cfg.loss cfg.k1s cfg.phys.zref st.eCount
        ⟨y.take cfg.prob.nc.toNat, cfg.target, genTheta cfg ops, coh⟩ st.agg).2

/-- Events of the closure evaluations of one optimiser step. -/
def closuresLog (cfg : TrainCfg) : List (List ℝ) → TrainState → List LogEvent
  | [], _ => []
  | θ :: θs, st =>
    closureLog cfg θ st ++
      match closure cfg θ st with
      | (.error _, _) => []
      | (.ok _, st) => closuresLog cfg θs st

/-- Events of the epochs `e, ..., e+n-1`, calibration.py L491-538. -/
def epochsLog (cfg : TrainCfg) (opt : ℕ → OptStep) : ℕ → ℕ → TrainState → List LogEvent
  | _, 0, _ => []
  | e, n + 1, st =>
    closuresLog cfg (opt e).queries st ++
      match runEpoch cfg e (opt e) st with
      | (.ok false, st) => epochsLog cfg opt (e + 1) n st
      | _ => []

/-- Events of the initial evaluation, calibration.py L383-436: step 0 and no coherence data. -/
def startLog (cfg : TrainCfg) (ops : OPS) : List LogEvent :=
  let r : Except PyErr Unit × OPS := match cfg.coh with
    | none => (.ok (), ops)
    | some c => match computeModelCoherence cfg.phys c.freqs c.seps ops with
      | (.error e, ops) => (.error e, ops)
      | (.ok _, ops) => (.ok (), ops)
  match r with
  | (.error _, _) => []
  | (.ok _, ops) =>
    match OPS.forward cfg.k1s ops with
    | (.error _, _) => []
    | (.ok y, ops) =>
      (lossEvalLog cfg.loss cfg.k1s cfg.phys.zref 0
        ⟨y.take cfg.prob.nc.toNat, cfg.target, genTheta cfg ops, none⟩ LossState.init).2

/-- Everything a call of `calibrate` writes to its log (each call makes a new `SummaryWriter`, hence a new file,
calibration.py L351-357, loss_functions.py L54). -/
def calibrateLog (cfg : TrainCfg) (opt : ℕ → OptStep) (ops : OPS) : List LogEvent :=
  startLog cfg ops ++
    match calibrateStart cfg ops with
    | (.error _, _) => []
    | (.ok _, st) => epochsLog cfg opt 1 cfg.prob.nepochs st

/-! ### Reading the log -/

/-- `event_acc.Tags()["scalars"]`: tags in the order of their first event. -/
def scalarTags (log : List LogEvent) : List String :=
  log.foldl (fun acc e => if e.tag ∈ acc then acc else acc ++ [e.tag]) []

/-- Values of `event_acc.Scalars(tag)`. -/
def scalarsOf (log : List LogEvent) (tag : String) : List Fl := (log.filter fun e => e.tag = tag).map LogEvent.value

/-- `plot_loss_logs`, common.py L180-202: the panels from left to right, with title and curve.  `plt.subplots(1, 0)`
raises `ValueError`; with a single tag `ax` is not an array and `ax[0]` raises `TypeError`.  The first value is cut off
twice (L188 and L194). -/
def plotLossLogs (log : List LogEvent) : Except PyErr (List (String × List Fl)) :=
  let vals := (scalarTags log).map fun t => (t, pySlice (scalarsOf log t) (some 1) none)
  if vals.length = 0 then .error .valueError
  else if vals.length = 1 then .error .typeError
  else .ok (vals.reverse.map fun v => (v.1, pySlice v.2 (some 1) none))

/-- The logging directory as `plot_losses` finds it: not set, not existing, or its files in the order of `os.listdir`
(which is arbitrary). -/
inductive LogDir where
  | unset
  | missing
  | files (l : List (List LogEvent))

/-- `plot_losses`, calibration.py L1146-1167 (`list[i]` with python's negative indices). -/
def plotLosses (d : LogDir) (run : ℤ) : Except PyErr (List (String × List Fl)) :=
  match d with
  | .unset => .error .assertionError
  | .missing => .error .fileNotFoundError
  | .files l =>
    let i := if run < 0 then run + l.length else run
    if i < 0 then .error .indexError else
    match l[i.toNat]? with
    | none => .error .indexError
    | some log => plotLossLogs log

/-! ### `get_current_loss_info` -/

/-- The dictionary returned by `get_current_loss_info`. -/
structure LossInfo where
  mseCurrent : Fl
  coherenceCurrent : Fl
  totalCurrent : Fl
  mseAvg : Fl
  coherenceAvg : Fl
  ratio : Fl

/-- `get_current_loss_info`, loss_functions.py L571-583 (`none` is the empty dictionary; `l[-1]` of an empty list is an
`IndexError`). -/
def currentLossInfo (s : LossState) : Except PyErr (Option LossInfo) :=
  if s.total = [] then .ok none else
  match s.hist.mse.getLast?, s.hist.coherence.getLast?, s.total.getLast? with
  | some m, some c, some t =>
    .ok (some ⟨m, c, t, s.avg.mse, s.avg.coherence, s.avg.mse / pyMax s.avg.coherence (fin 1e-8)⟩)
  | _, _, _ => .error .indexError

end
end Verif
