import Verif.Model.Calibration

/-!
# Diagnostic methods: divergence of a tensor, gradient of the model, norm of the network parameters
-/

namespace Verif
open Fl

noncomputable section
open Classical

/-- `OnePointSpectra.get_div` (one_point_spectra.py L640-667) at one point of the wavenumber grid.  `freq` is the attribute of that
name: no method of the class assigns it, so it is `none` unless set from outside.  `Phi` is the argument, read by position
(L658: 11, 22, 33, 13, 12, 23; a wrong number of entries is a `ValueError`).  All operations are elementwise. -/
def getDiv (freq : Option K3) (Phi : List Fl) : Except PyErr (List Fl) :=
  match freq with
  | none => .error .attributeError
  | some k =>
    match Phi with
    | [Phi11, Phi22, Phi33, Phi13, Phi12, Phi23] =>
      let tr := fin (1 / 3) * (Phi11 + Phi22 + Phi33)
      .ok [(fin k.k1 * Phi11 + fin k.k2 * Phi12 + fin k.k3 * Phi13) / tr,
        (fin k.k1 * Phi12 + fin k.k2 * Phi22 + fin k.k3 * Phi23) / tr,
        (fin k.k1 * Phi13 + fin k.k2 * Phi23 + fin k.k3 * Phi33) / tr]
    | _ => .error .valueError

/-- A tensor with the flag that says whether its operations were recorded (`requires_grad`). -/
structure Recorded (α : Type) where
  val : α
  recorded : Bool

/-- `Tensor.backward()`: a `RuntimeError` for a tensor without recorded operations, and for more than one element. -/
def Recorded.backward (y : Recorded (List (List Fl))) : Except PyErr Unit :=
  if y.recorded = true ∧ y.val.flatten.length = 1 then .ok () else .error .runtimeError

/-- `OPS(k1)` with gradient mode on or off: the parameters require gradients, so the result is recorded iff the mode is on. -/
def OPS.call (gradMode : Bool) (k1s : List ℝ) : OPSM (Recorded (List (List Fl))) := fun s =>
  match OPS.forward k1s s with
  | (.error e, s) => (.error e, s)
  | (.ok y, s) => (.ok ⟨y, gradMode⟩, s)

/-- `CalibrationProblem.eval` (calibration.py L220-239). -/
def evalModel (k1s : List ℝ) : OPSM (List (List Fl)) := fun s =>
  match OPS.call false k1s s with
  | (.error e, s) => (.error e, s)
  | (.ok y, s) => (.ok y.val, s)

/-- `CalibrationProblem.eval_grad` (calibration.py L241-262): forward pass under `no_grad`, then `backward`; `grad` stands for
the gradients collected afterwards (L261). -/
def evalGrad (grad : OPS → List Fl) (k1s : List ℝ) : OPSM (List Fl) := fun s =>
  match OPS.call false k1s s with
  | (.error e, s) => (.error e, s)
  | (.ok y, s) =>
    match y.backward with
    | .error e => (.error e, s)
    | .ok _ => (.ok (grad s), s)

/-- `eval_trainable_norm` (calibration.py L637-660) for the default order `"fro"`: `torch.norm` of the vector of the network's
parameters. -/
def evalTrainableNorm (learnNu : Bool) (s : OPS) : Except PyErr ℝ :=
  match s.kind with
  | .taunet net => .ok (Real.sqrt (((net.paramVec learnNu).map fun x => x ^ 2).sum))
  | _ => .error .valueError

end
end Verif
