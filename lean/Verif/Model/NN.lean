import Verif.Num.Fl
import Verif.Num.Py

/-!
# Model of `drdmannturb/nn_modules.py`

Vectors are lists of reals.  Weights are finite reals; the initialisation noise is irrelevant because all
theorems quantify over arbitrary weights.
-/

namespace Verif
open Fl

noncomputable section

/-- `Rational.forward`, nn_modules.py L47-65: `|x|**(nu-2/3) / (1+|x|**2)**(nu/2)`. -/
def rational (nu : ℝ) (x : Fl) : Fl :=
  let a := nu - 2 / 3
  let b := nu / 2
  let out := Fl.abs x
  Fl.pow out a / Fl.pow (1 + out * out) b

/-- Bias-free `nn.Linear` (nn_modules.py L149-156): one output per row of the weight matrix. -/
def linear (W : List (List ℝ)) (x : List ℝ) : List ℝ :=
  W.map fun row => (List.zipWith (· * ·) row x).sum

/-- A `TauNet` object: the `linears` list, the activation modules and `Ra.nu` (nn_modules.py L133-161). -/
structure TauNet where
  linears : List (List (List ℝ))
  activations : List (List ℝ → List ℝ)
  nu : ℝ

/-- `TauNet._mlp_forward`, nn_modules.py L171-182.  `zip` pairs `linears[:-1]` with the activations; the
constructor guarantees that both have length `n_layers`. -/
def TauNet.mlpForward (net : TauNet) (x : List ℝ) : List ℝ :=
  let out := (net.linears.dropLast.zip net.activations).foldl (fun out la => la.2 (linear la.1 out)) x
  let out := linear (net.linears.getLastD []) out
  List.zipWith (· + ·) x out

/-- `tensor.norm(dim=-1)`. -/
def vecNorm (x : List ℝ) : ℝ := Real.sqrt (x.map fun t => t * t).sum

/-- `TauNet.forward`, nn_modules.py L184-202. -/
def TauNet.forward (net : TauNet) (k : List ℝ) : Fl :=
  let k_mod := vecNorm (net.mlpForward (k.map fun t => |t|))
  rational net.nu (fin k_mod)

/-- The ReLU module (default activation, nn_modules.py L135). -/
def reluVec (x : List ℝ) : List ℝ := x.map fun t => max t 0

end

/-- The `hidden_layer_sizes` argument: an integer or a list of integers. -/
inductive SizesArg where
  | int (n : Int)
  | list (l : List Int)

/-- The `activations` argument: `None`, a module, a list (each entry flagged whether it is an `nn.Module`),
or something else. -/
inductive ActsArg where
  | none
  | module
  | list (isModule : List Bool)
  | other

/-- `TauNet.__init__`, nn_modules.py L88-169: validation and layer shapes `(in, out)`.
`nLayers = none` stands for an argument that is not an `int`. -/
def tauNetInit (nLayers : Option Int) (sizes : SizesArg) (acts : ActsArg) :
    Except PyErr (List (Nat × Nat)) := do
  -- L114-117
  let n ← match nLayers with
    | none => throw PyErr.valueError
    | some n => if n ≤ 0 then throw PyErr.valueError else pure n
  -- L119-131
  let hs ← match sizes with
    | .int h => if h ≤ 0 then throw PyErr.valueError else pure (List.replicate n.toNat h)
    | .list l =>
      if (l.length : Int) ≠ n then throw PyErr.valueError
      else if l.any (fun s => decide (s ≤ 0)) then throw PyErr.valueError
      else pure l
  -- L133-146
  match acts with
    | .none => pure ()
    | .module => pure ()
    | .list l =>
      if (l.length : Int) ≠ n then throw PyErr.valueError
      else if l.any (fun b => !b) then throw PyErr.valueError
      else pure ()
    | .other => throw PyErr.valueError
  -- L148-158
  let hs := hs.map Int.toNat
  let first := [(3, hs.headD 0)]
  let hidden := (List.range (n.toNat - 1)).map fun i => (hs.getD i 0, hs.getD (i + 1) 0)
  let last := [(hs.getLastD 0, 3)]
  return first ++ hidden ++ last

/-- `sum(p.numel() for p in tauNet.parameters())` (calibration.py L614-635 counts these): the weights, plus
`nu` when `learn_nu` (nn_modules.py L41-45). -/
def tauNetNumel (shapes : List (Nat × Nat)) (learnNu : Bool) : Nat :=
  (shapes.map fun s => s.1 * s.2).sum + (if learnNu then 1 else 0)

end Verif
