import Mathlib.Analysis.SpecialFunctions.Trigonometric.Basic
import Verif.Model.Autograd

/-!
# The learning rate of a fit and the Adam optimiser

The two ingredients of `torch` that the fitting loop uses with `optimizer_class` other than `LBFGS` (calibration.py L408-422):
`torch.optim.lr_scheduler.CosineAnnealingLR` and `torch.optim.Adam`, written out as their documented update rules over exact
reals.
-/

namespace Verif
open Fl

noncomputable section

/-- `CosineAnnealingLR.get_lr` with `eta_min = 0` at `last_epoch = e ≥ 1`, in the recursive form the scheduler uses (it rescales the
current rate, so that manual changes of the rate persist); `scheduler = CosineAnnealingLR(optimizer, T_max=max_epochs)`,
calibration.py L422, stepped once per epoch (L497). -/
def cosineStep (base : ℝ) (T e : ℕ) (lr : ℝ) : ℝ :=
  if ((e : ℤ) - 1 - T) % (2 * T) = 0 then lr + base * (1 - Real.cos (Real.pi / T)) / 2
  else (1 + Real.cos (Real.pi * e / T)) / (1 + Real.cos (Real.pi * (e - 1) / T)) * lr

/-- `optimizer.param_groups[0]["lr"]` at the end of epoch `e` of a fit: after the step of the scheduler (L497) and the reductions
decided in that epoch (L520-528), for the reductions `ev` (epoch, factor).  `base` is `prob_params.learning_rate`, `T` is
`max_epochs`. -/
def rateAfter (base : ℝ) (T : ℕ) (ev : List (ℕ × ℝ)) : ℕ → ℝ
  | 0 => base
  | e + 1 => (ev.filter fun q => q.1 = e + 1).foldl (fun l q => l * q.2) (cosineStep base T (e + 1) (rateAfter base T ev e))

/-- `exp_avg` and `exp_avg_sq` of one coordinate after the gradients `gs` (betas 0.9 and 0.999, calibration.py L417). -/
def adamMoments (gs : List ℝ) : ℝ × ℝ :=
  gs.foldl (fun mv g => (mv.1 + (g - mv.1) * (1 - 0.9), 0.999 * mv.2 + (1 - 0.999) * (g * g))) (0, 0)

/-- What `Adam.step` subtracts from the coordinate in the step in which the last entry of `gs` is the gradient (`eps = 1e-8`,
calibration.py L418). -/
def adamDelta (lr : ℝ) (gs : List ℝ) : ℝ :=
  lr / (1 - 0.9 ^ gs.length) *
    ((adamMoments gs).1 / (Real.sqrt (adamMoments gs).2 / Real.sqrt (1 - 0.999 ^ gs.length) + 1e-8))

/-- Gradients of coordinate `i` as `Adam` sees them, with `weight_decay = 1e-5` (calibration.py L419): the decay is added to the
gradient before the moments are formed. -/
def adamGrads (hist : List (List ℝ × List Fl)) (i : ℕ) : List ℝ :=
  hist.map fun p => (p.2.getD i (fin 0)).toReal + 1e-5 * p.1.getD i 0

/-- The parameters after a step of `Adam` in epoch `e`; `hist` holds parameters and gradients of all steps including this one.
Meaningful for finite gradients; a non-finite gradient turns the coordinate into NaN, see `GradOpt.IsAdam`. -/
def adamStep (base : ℝ) (T N e : ℕ) (ev : List (ℕ × ℝ)) (hist : List (List ℝ × List Fl)) : List ℝ :=
  (List.range N).map fun i =>
    ((hist.getLastD ([], [])).1.getD i 0) - adamDelta (rateAfter base T ev (e - 1)) (adamGrads hist i)

/-- The optimiser is `Adam` with the cosine schedule for `N` parameters (calibration.py L413-422): its steps are those of `adamStep`
as long as all gradients were finite (nothing is said otherwise). -/
def GradOpt.IsAdam (O : GradOpt) (base : ℝ) (T N : ℕ) : Prop :=
  ∀ e ev hist, (∀ p ∈ hist, ∀ g ∈ p.2, g.IsFin) → O.step e ev hist = adamStep base T N e ev hist

/-- Parameters and gradients of all steps of `runEpochsG` (ghost record). -/
def traceG (cfg : TrainCfg) (D : GradRule) (O : GradOpt) : ℕ → ℕ → List (List ℝ × List Fl) → TrainState → List (List ℝ × List Fl)
  | _, 0, hist, _ => hist
  | e, n + 1, hist, st =>
    let θ := st.ops.paramVec cfg.prob.learnNu
    let hist' := hist ++ [(θ, backward cfg D st.ops θ)]
    match runEpoch cfg e (O.optStep cfg D e hist st) st with
    | (.ok false, st') => traceG cfg D O (e + 1) n hist' st'
    | _ => hist'

end
end Verif
