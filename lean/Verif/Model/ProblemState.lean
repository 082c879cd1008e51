import Verif.Model.Diagnostics
import Verif.Model.CoherenceFile

/-!
# A `CalibrationProblem` between calls: what `plot` and `print_calibrated_params` read
-/

namespace Verif
open Fl

noncomputable section
open Classical

/-- Row `i` of a stored grid. -/
def CohFileData.row (d : CohFileData) (g : CohGrid) (i : ℤ) : List Fl := (List.range d.nFreqs).map (g i.toNat)

/-- The data selected for the fit from a loaded file (calibration.py L331-343): the four separations of L1239-1242 and their rows. -/
def CohFileData.fit (d : CohFileData) : CohFit :=
  ⟨d.freqs, d.sepIndices.map fun i => d.seps.getD i.toNat 0, d.sepIndices.map (d.row d.u), d.sepIndices.map (d.row d.v),
    d.sepIndices.map (d.row d.w)⟩

/-- The attributes of a `CalibrationProblem` read after a fit: the spectra object, `model_coherence_u/v/w`, the selected coherence data
(`none` stands for `has_coherence_data = False` or not set) and `calibrated_params`. -/
structure Problem where
  ops : OPS
  model : Option (List (List (List Fl)))
  coh : Option CohFit
  calibrated : Option Calibrated

/-- After the constructor (calibration.py L93-132): none of the attributes exists. -/
def Problem.new (ops : OPS) : Problem := ⟨ops, none, none, none⟩

/-- `calibrate` on the object (calibration.py L264-549).  `model_coherence_*` is assigned before training (L390-392) and nowhere
else; the closure uses local variables (L456); `calibrated_params` is assigned at the end (L538). -/
def Problem.calibrate (cfg : TrainCfg) (opt : ℕ → OptStep) (p : Problem) : Except PyErr Calibrated × Problem :=
  let model := match cfg.coh with
    | none => p.model
    | some c => match (computeModelCoherence cfg.phys c.freqs c.seps p.ops).1 with
      | .ok m => some m
      | .error _ => p.model
  match Verif.calibrate cfg opt p.ops with
  | (.error e, st) => (.error e, ⟨st.ops, model, cfg.coh, p.calibrated⟩)
  | (.ok c, st) => (.ok c, ⟨st.ops, model, cfg.coh, some c⟩)

/-- Public calls that change the object. -/
inductive ProblemCall where
  | calibrate (cfg : TrainCfg) (opt : ℕ → OptStep)
  | setParameters (learnNu : Bool) (v : List ℝ)
  | eval (k1s : List ℝ)

/-- State after one call (an exception leaves the state reached so far). -/
def ProblemCall.run : ProblemCall → Problem → Problem
  | .calibrate cfg opt, p => (p.calibrate cfg opt).2
  | .setParameters ln v, p => { p with ops := (p.ops.setParameters ln v).2 }
  | .eval k1s, p => { p with ops := (evalModel k1s p.ops).2 }

/-- State after several calls. -/
def runProblem (calls : List ProblemCall) (p : Problem) : Problem := calls.foldl (fun p c => c.run p) p

/-- One panel of the coherence figure: the data markers and the line labelled "Model". -/
structure CohPanel where
  sep : ℝ
  data : List (ℝ × Fl)
  model : Option (List (ℝ × Fl))

/-- `_plot_coherence_data` (calibration.py L1066-1144), called by `plot` if `has_coherence_data` (L1060-1061): four rows
(separations) and three columns (u, v, w).  Fewer than four separations: `IndexError`. -/
def Problem.plotCoherence (p : Problem) : Except PyErr (List (List CohPanel)) :=
  match p.coh with
  | none => .ok []
  | some c =>
    if c.seps.length < 4 then .error .indexError else
    .ok ((List.range 4).map fun row => (List.range 3).map fun col =>
      ⟨c.seps.getD row 0,
        c.freqs.zip (([c.dataU, c.dataV, c.dataW].getD col []).getD row []),
        p.model.map fun m => c.freqs.zip ((m.getD col []).getD row [])⟩)

/-- `print_calibrated_params` (calibration.py L585-610): what is printed. -/
def Problem.printed (p : Problem) : Except PyErr Calibrated :=
  match p.calibrated with
  | none => .error .valueError
  | some c => .ok c

/-- One abscissa of the eddy-lifetime figure. -/
structure TauPoint where
  x : ℝ
  model : List Fl
  ref : Fl

/-- The eddy-lifetime figure of `plot` (calibration.py L935-1030): 50 wavenumbers from `10^-3` to `10^3` in the three axis
directions and along the diagonal; abscissa and reference curve use `phys_params` (L944, L959), the model curves the current
parameters. -/
def tauFigure (hyp : ℝ → ℝ) (phys : PhysCfg) (s : OPS) : Except PyErr (List TauPoint) :=
  match (OPS.EddyLifetime true s).1 with
  | .error e => .error e
  | .ok f => .ok ((logspace (-3) 3 50).map fun k =>
      ⟨k * phys.L, [f ⟨k, 0, 0⟩, f ⟨0, k, 0⟩, f ⟨0, 0, k⟩, f ⟨k / Real.sqrt 3, k / Real.sqrt 3, k / Real.sqrt 3⟩],
        fin phys.Gamma * MannEddyLifetime hyp (fin (phys.L * k))⟩)

end
end Verif
