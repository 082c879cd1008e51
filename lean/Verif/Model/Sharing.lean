import Verif.Model.ProblemState

/-!
# Who shares the parameter vector: the `parameters` setter and the tensors of the caller

`vector_to_parameters` (torch) assigns `param.data = vec[a:b].view_as(param).data`: after it, the parameters of the module are
views of the vector.  The setter (calibration.py L174-196) copies arrays (`torch.tensor(param_vec)`, L186-187) but passes
tensors on as they are, so the parameters of the object are then views of the caller's tensor.  Optimisers of torch update
parameters in place, and in-place operations of the caller on the tensor change the views.  The getter (L150-172) concatenates,
so what it returns is a copy.
-/

namespace Verif
open Fl

noncomputable section
open Classical

/-- A `CalibrationProblem` object.  `prob` is its state except that, if its parameters are views of the caller's tensor number `t`
(`tied = some t`), their values are those of the tensor. -/
structure SharedObj where
  prob : Problem
  learnNu : Bool
  tied : Option ℕ

/-- The tensors of the caller, with their current contents, and the objects. -/
structure Shared where
  tensors : List (List ℝ)
  objs : List SharedObj

/-- The state of an object as seen through its parameters. -/
def Shared.current (s : Shared) (o : SharedObj) : Problem :=
  match o.tied with
  | none => o.prob
  | some t => { o.prob with ops := o.prob.ops.setVec o.learnNu (s.tensors.getD t []) }

/-- `problem.parameters` of object `i` (getter, L150-172). -/
def Shared.read (s : Shared) (i : ℕ) : Option (List ℝ) :=
  s.objs[i]?.map fun o => (s.current o).ops.paramVec o.learnNu

/-- Contents of a tensor after its entries have been overwritten in place. -/
def overwrite (old new : List ℝ) : List ℝ := (List.range old.length).map fun k => new.getD k (old.getD k 0)

/-- What the caller can do. -/
inductive ShareCmd where
  /-- `t = torch.tensor(v)` -/
  | tensor (v : List ℝ)
  /-- `t.copy_(v)` -/
  | write (t : ℕ) (v : List ℝ)
  /-- a constructor that returned: its last assignment of the parameters is that of an array (`log_dimensional_scales`, L198-207) -/
  | create (p : Problem) (learnNu : Bool)
  /-- `problem.parameters = v` with an array -/
  | setArray (i : ℕ) (v : List ℝ)
  /-- `problem.parameters = t` with a tensor -/
  | setTensor (i t : ℕ)
  /-- `problem.calibrate(...)` -/
  | calibrate (i : ℕ) (cfg : TrainCfg) (opt : ℕ → OptStep)

/-- The object a command changes by its own. -/
def ShareCmd.sets : ShareCmd → Option ℕ
  | .setArray i _ => some i
  | .setTensor i _ => some i
  | _ => none

/-- The object a command is a call on. -/
def ShareCmd.on : ShareCmd → Option ℕ
  | .setArray i _ => some i
  | .setTensor i _ => some i
  | .calibrate i _ _ => some i
  | _ => none

/-- Configuration of the fit of an object: `learn_nu` is that of its constructor. -/
def TrainCfg.forObj (cfg : TrainCfg) (o : SharedObj) : TrainCfg := { cfg with prob := { cfg.prob with learnNu := o.learnNu } }

/-- Effect of a command; the result is the dictionary of `calibrate`.  Objects and tensors that do not exist cannot be named in
python; here such commands do nothing and report `IndexError`. -/
def ShareCmd.run : ShareCmd → Shared → Except PyErr (Option Calibrated) × Shared
  | .tensor v, s => (.ok none, { s with tensors := s.tensors ++ [v] })
  | .write t v, s =>
    match s.tensors[t]? with
    | none => (.error .indexError, s)
    | some w => if v.length ≠ w.length then (.error .runtimeError, s) else (.ok none, { s with tensors := s.tensors.set t v })
  | .create p ln, s => (.ok none, { s with objs := s.objs ++ [⟨p, ln, none⟩] })
  | .setArray i v, s =>
    match s.objs[i]? with
    | none => (.error .indexError, s)
    | some o =>
      -- L186-196: a copy is made, the parameters become views of the copy
      match (s.current o).ops.setParameters o.learnNu v with
      | (.error e, _) => (.error e, s)
      | (.ok _, ops) => (.ok none, { s with objs := s.objs.set i ⟨{ o.prob with ops }, o.learnNu, none⟩ })
  | .setTensor i t, s =>
    match s.objs[i]?, s.tensors[t]? with
    | some o, some v =>
      match (s.current o).ops.setParameters o.learnNu v with
      | (.error e, _) => (.error e, s)
      | (.ok _, ops) => (.ok none, { s with objs := s.objs.set i ⟨{ o.prob with ops }, o.learnNu, some t⟩ })
    | _, _ => (.error .indexError, s)
  | .calibrate i cfg opt, s =>
    match s.objs[i]? with
    | none => (.error .indexError, s)
    | some o =>
      let r := (s.current o).calibrate (cfg.forObj o) opt
      let objs := s.objs.set i ⟨r.2, o.learnNu, o.tied⟩
      (r.1.map some, match o.tied with
        | none => ⟨s.tensors, objs⟩
        | some t => ⟨s.tensors.modify t fun w => overwrite w (r.2.ops.paramVec o.learnNu), objs⟩)

/-- State after several commands (an exception ends a command, not the session). -/
def Shared.after (cs : List ShareCmd) (s : Shared) : Shared := cs.foldl (fun s c => (c.run s).2) s

/-- Nothing created yet. -/
def Shared.empty : Shared := ⟨[], []⟩

end
end Verif
