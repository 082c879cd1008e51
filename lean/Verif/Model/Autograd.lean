import Verif.Model.Calibration

/-!
# What `loss.backward()` differentiates

`torch` differentiates the recorded operations.  Tensors computed under `torch.no_grad()` or after `detach()` enter the
recorded loss as constants.  In the fitting code these are the model coherence (`_compute_model_coherence`,
calibration.py L553) and the `MANN` eddy lifetime (common.py L109).  The recorded loss is therefore modelled as a function of
two copies of the parameters: the copy `a` whose operations are recorded and the copy `d` seen by the constant parts.  The
gradient is taken in `a` at fixed `d`, and both copies hold the current parameters.
-/

namespace Verif
open Fl

noncomputable section
open Classical

/-- `EddyLifetime` with its recorded dependence on the parameters (one_point_spectra.py L466-514): the wavenumber passed to
`MannEddyLifetime` is detached (common.py L109), so the length scale inside it is a constant; the factor `TimeScale` (L513) is
recorded.  Every other formula is recorded completely (the regression of `MANN_APPROX` uses constants only). -/
def OPS.recLifetime (a d : OPS) (k : K3) : Fl :=
  match a.kind with
  | .mann => eddyLifetime a.hyp .mann (Real.exp d.logL) (Real.exp a.logT) k
  | _ => eddyLifetime a.hyp a.initApprox.ty (Real.exp a.logL) (Real.exp a.logT) k

/-- `forward` with its recorded dependence on the parameters (one_point_spectra.py L195-259): as `OPS.forward` with the recorded
lifetime. -/
def OPS.recForward (k1s : List ℝ) (a d : OPS) : List (List Fl) :=
  phiSelectors.map fun sel => k1s.map fun k1 => fin k1 * quad23 a.grid a.grid fun k2 k3 =>
    let k : K3 := ⟨k1, k2, k3⟩
    let beta := OPS.recLifetime a d k
    let E0 := energyE0 a.sp (Real.exp a.logL) (Real.exp a.logM) k beta
    sel (phiFloor (1e-12) (phiRaw k beta (E0 / fin (4 * Real.pi))))

/-- The loss of one closure evaluation (calibration.py L443-481) with its recorded dependence on the parameters: predictions and
network parameters are recorded, the model coherence is computed under `no_grad` (L553). -/
def recLoss (cfg : TrainCfg) (a d : OPS) : Except PyErr Fl :=
  match (closureCoherence cfg (OPS.forward cfg.k1s d).2).1 with
  | .error e => .error e
  | .ok coh =>
    match evalTerms cfg.loss cfg.k1s cfg.phys.zref
        ⟨(OPS.recForward cfg.k1s a d).take cfg.prob.nc.toNat, cfg.target, genTheta cfg a, coh⟩ with
    | .error e => .error e
    | .ok v => .ok (v.mse + v.coherence + v.pen1 + v.pen2 + v.regularization)

/-- The recorded loss as a function of the recorded copy of the parameters, at a constant copy.  (An exception has no value, nor
has a vector of the wrong length: NaN.) -/
def recValue (cfg : TrainCfg) (s : OPS) (θd θa : List ℝ) : Fl :=
  if θa.length ≠ (s.paramVec cfg.prob.learnNu).length then nan else
  match recLoss cfg (s.setVec cfg.prob.learnNu θa) (s.setVec cfg.prob.learnNu θd) with
  | .ok l => l
  | .error _ => nan

/-- A differentiation engine.  All that is assumed is that a constant summand has no gradient; `torch.autograd` accumulates
gradients along recorded operations, and an addition passes the gradient of the sum unchanged to each summand. -/
structure GradRule where
  grad : (List ℝ → Fl) → List ℝ → List Fl
  shift : ∀ (f : List ℝ → Fl) (c : ℝ) (θ : List ℝ), grad (fun x => f x + fin c) θ = grad f θ

/-- `self.loss.backward()` (calibration.py L481) at the current parameters `θ`. -/
def backward (cfg : TrainCfg) (D : GradRule) (s : OPS) (θ : List ℝ) : List Fl :=
  D.grad (recValue cfg s θ) θ

/-- A gradient-driven optimiser with its learning-rate schedule (`torch.optim.Adam` and `CosineAnnealingLR`, calibration.py
L414-422): the new parameters are a function of the epoch, of the reductions of the learning rate made so far and of the
parameters and gradients of all steps so far (moments and weight decay are functions of these).  The value of the loss is not
used: `Adam.step(closure)` calls the closure once and returns its value. -/
structure GradOpt where
  step : ℕ → List (ℕ × ℝ) → List (List ℝ × List Fl) → List ℝ

/-- Behaviour of such an optimiser in one epoch: one closure evaluation at the current parameters. -/
def GradOpt.optStep (cfg : TrainCfg) (D : GradRule) (O : GradOpt) (e : ℕ) (hist : List (List ℝ × List Fl))
    (st : TrainState) : OptStep :=
  let θ := st.ops.paramVec cfg.prob.learnNu
  ⟨[θ], O.step e st.lrEvents (hist ++ [(θ, backward cfg D st.ops θ)])⟩

/-- Epochs `e, …, e+n-1` with a gradient-driven optimiser (calibration.py L487-531); `hist` is the optimiser's memory. -/
def runEpochsG (cfg : TrainCfg) (D : GradRule) (O : GradOpt) : ℕ → ℕ → List (List ℝ × List Fl) → TrainM Unit
  | _, 0, _, st => (.ok (), st)
  | e, n + 1, hist, st =>
    let θ := st.ops.paramVec cfg.prob.learnNu
    match runEpoch cfg e (O.optStep cfg D e hist st) st with
    | (.error err, st) => (.error err, st)
    | (.ok true, st) => (.ok (), st)
    | (.ok false, st') => runEpochsG cfg D O (e + 1) n (hist ++ [(θ, backward cfg D st.ops θ)]) st'

/-- `calibrate` with a gradient-driven optimiser (calibration.py L264-549). -/
def calibrateG (cfg : TrainCfg) (D : GradRule) (O : GradOpt) (ops : OPS) : Except PyErr Calibrated × TrainState :=
  match calibrateStart cfg ops with
  | (.error e, st) => (.error e, st)
  | (.ok _, st) =>
    match runEpochsG cfg D O 1 cfg.prob.nepochs [] st with
    | (.error e, st) => (.error e, st)
    | (.ok _, st) => (.ok (calibratedParams cfg.prob.learnable (st.ops.paramVec cfg.prob.learnNu)), st)

end
end Verif
