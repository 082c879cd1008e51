import Verif.Num.Fl
import Verif.Num.Py

/-!
# `LossAggregator` (`spectra_fitting/loss_functions.py`)

Tensors are lists of rows.  TensorBoard output and prints are not modelled.
-/

namespace Verif
open Fl

noncomputable section
open Classical

/-- `LossParameters` (parameters.py L129-159), the four coefficients. -/
structure LossParams where
  alphaPen1 : ℝ
  alphaPen2 : ℝ
  betaReg : ℝ
  gammaCoherence : ℝ

/-- `torch.mean` of a tensor given by its entries (`0/0 = NaN` when empty). -/
def flMean (l : List Fl) : Fl := l.sum / fin (l.length : ℝ)

/-- Raise `ValueError` when a term is NaN (`if loss.isnan(): raise ValueError`). -/
def raiseIfNan (x : Fl) : Except PyErr Fl := if x.IsNan then .error .valueError else .ok x

/-- `torch.diff` along the last axis. -/
def flDiff : List Fl → List Fl
  | a :: b :: l => (b - a) :: flDiff (b :: l)
  | _ => []

/-- Shapes agree (broadcasting of unequal shapes is not modelled; the callers never use it). -/
def sameShape (a b : List (List Fl)) : Prop := a.map List.length = b.map List.length

/-- Elementwise binary operation followed by flattening. -/
def zipFlat (f : Fl → Fl → Fl) (a b : List (List Fl)) : List Fl :=
  (List.zipWith (fun r s => List.zipWith f r s) a b).flatten

/-- `MSE_term`, L116-151: `mean(square(log|model/target|))`. -/
def mseTerm (model target : List (List Fl)) : Except PyErr Fl :=
  if sameShape model target then
    raiseIfNan (flMean (zipFlat (fun m t => Fl.log (Fl.abs (m / t)) * Fl.log (Fl.abs (m / t))) model target))
  else .error .runtimeError

/-- Grid quantities of the constructor, L60-62. -/
def logK1 (k1s : List ℝ) : List Fl := k1s.map fun k => Fl.log (fin k)
def h1Of (k1s : List ℝ) : List Fl := flDiff (logK1 k1s)
def midpoints : List Fl → List Fl
  | a :: b :: l => (fin 0.5 * (a + b)) :: midpoints (b :: l)
  | _ => []
def h2Of (k1s : List ℝ) : List Fl := flDiff (midpoints (logK1 k1s))

/-- `log|y|` of a row. -/
def logAbs (row : List Fl) : List Fl := row.map fun x => Fl.log (Fl.abs x)

/-- First log-log slopes of a row: `diff(logy)/h1`. -/
def d1logy (k1s : List ℝ) (row : List Fl) : List Fl := List.zipWith (· / ·) (flDiff (logAbs row)) (h1Of k1s)

/-- Second log-log differences of a row: `diff(diff(logy)/h1)/h2`. -/
def d2logy (k1s : List ℝ) (row : List Fl) : List Fl := List.zipWith (· / ·) (flDiff (d1logy k1s row)) (h2Of k1s)

/-- `relu(x).square()`. -/
def reluSq (x : Fl) : Fl := Fl.relu x * Fl.relu x

/-- `Pen1stOrder`, L193-232. -/
def pen1 (p : LossParams) (k1s : List ℝ) (zref : ℝ) (y : List (List Fl)) : Except PyErr Fl :=
  if ∀ row ∈ y, row.length = k1s.length then
    raiseIfNan (fin p.alphaPen1 * flMean ((y.map fun row => (d1logy k1s row).map reluSq).flatten) / fin zref)
  else .error .runtimeError

/-- `Pen2ndOrder`, L153-191. -/
def pen2 (p : LossParams) (k1s : List ℝ) (zref : ℝ) (y : List (List Fl)) : Except PyErr Fl :=
  if ∀ row ∈ y, row.length = k1s.length then
    raiseIfNan (fin p.alphaPen2 * flMean ((y.map fun row => (d2logy k1s row).map reluSq).flatten) / fin (zref ^ 2))
  else .error .runtimeError

/-- What `calibrate` passes as `theta_NN`: nothing, the python float `0.0` (no TauNet, calibration.py L430), or the
network parameters. -/
inductive Theta where
  | none
  | scalar
  | vec (θ : List Fl)

/-- `Regularization`, L234-263 (`0.0.square` is an AttributeError). -/
def regularization (p : LossParams) : Theta → Except PyErr Fl
  | .vec θ => raiseIfNan (fin p.betaReg * flMean (θ.map fun x => x * x))
  | _ => .error .attributeError

/-- Model and data coherence of the three components. -/
structure CohData where
  modelU : List (List Fl)
  modelV : List (List Fl)
  modelW : List (List Fl)
  dataU : List (List Fl)
  dataV : List (List Fl)
  dataW : List (List Fl)

/-- Mean squared difference. -/
def msd (a b : List (List Fl)) : Fl := flMean (zipFlat (fun m d => (m - d) * (m - d)) a b)

/-- `CoherenceLoss`, L265-349. -/
def coherenceLoss (p : LossParams) (c : CohData) : Except PyErr Fl :=
  if sameShape c.modelU c.dataU ∧ sameShape c.modelV c.dataV ∧ sameShape c.modelW c.dataW then
    raiseIfNan (fin p.gammaCoherence *
      ((msd c.modelU c.dataU + msd c.modelV c.dataV + msd c.modelW c.dataW) / fin 3))
  else .error .runtimeError

/-- The five running averages. -/
structure Five (α : Type) where
  mse : α
  coherence : α
  pen1 : α
  pen2 : α
  regularization : α

/-- Mutable state: `component_losses` (L84-91) and `running_averages` (L93-99). -/
structure LossState where
  hist : Five (List Fl)
  total : List Fl
  avg : Five Fl

/-- State after construction. -/
def LossState.init : LossState := ⟨⟨[], [], [], [], []⟩, [], ⟨0, 0, 0, 0, 0⟩⟩

/-- `update_running_averages`, L445-470 (`ema_decay = 0.9`; the test is on the length *after* appending). -/
def ema (n : ℕ) (avg v : Fl) : Fl := if n = 1 then v else fin 0.9 * avg + fin (1 - 0.9) * v

def updateAverages (n : ℕ) (a v : Five Fl) : Five Fl :=
  ⟨ema n a.mse v.mse, ema n a.coherence v.coherence, ema n a.pen1 v.pen1, ema n a.pen2 v.pen2,
    ema n a.regularization v.regularization⟩

/-- Arguments of one `eval` call. -/
structure EvalArgs where
  y : List (List Fl)
  yData : List (List Fl)
  theta : Theta
  coherence : Option CohData

/-- Coherence term, L396-406: computed only when coherence data is passed and its coefficient is positive. -/
def cohTerm (p : LossParams) (a : EvalArgs) : Except PyErr Fl :=
  match a.coherence with
  | some c => if 0 < p.gammaCoherence then coherenceLoss p c else .ok (fin 0)
  | none => .ok (fin 0)

/-- First-order penalty, L409-411. -/
def pen1Term (p : LossParams) (k1s : List ℝ) (zref : ℝ) (a : EvalArgs) : Except PyErr Fl :=
  if 0 < p.alphaPen1 then pen1 p k1s zref a.y else .ok (fin 0)

/-- Second-order penalty, L413-415. -/
def pen2Term (p : LossParams) (k1s : List ℝ) (zref : ℝ) (a : EvalArgs) : Except PyErr Fl :=
  if 0 < p.alphaPen2 then pen2 p k1s zref a.y else .ok (fin 0)

/-- Regularisation, L418-420. -/
def regTerm (p : LossParams) (a : EvalArgs) : Except PyErr Fl :=
  match a.theta with
  | .none => .ok (fin 0)
  | θ => if 0 < p.betaReg then regularization p θ else .ok (fin 0)

/-- The five terms in evaluation order, L392-420; the first exception wins. -/
def evalTerms (p : LossParams) (k1s : List ℝ) (zref : ℝ) (a : EvalArgs) : Except PyErr (Five Fl) := do
  let mse ← mseTerm a.y a.yData
  let coh ← cohTerm p a
  let p1 ← pen1Term p k1s zref a
  let p2 ← pen2Term p k1s zref a
  let reg ← regTerm p a
  pure ⟨mse, coh, p1, p2, reg⟩

/-- `eval`, L382-443. -/
def lossEval (p : LossParams) (k1s : List ℝ) (zref : ℝ) (a : EvalArgs) (s : LossState) :
    Except PyErr Fl × LossState :=
  match evalTerms p k1s zref a with
  | .error e => (.error e, s)
  | .ok v =>
    let hist : Five (List Fl) := ⟨s.hist.mse ++ [v.mse], s.hist.coherence ++ [v.coherence], s.hist.pen1 ++ [v.pen1],
      s.hist.pen2 ++ [v.pen2], s.hist.regularization ++ [v.regularization]⟩
    let avg := updateAverages hist.mse.length s.avg v
    let total := v.mse + v.coherence + v.pen1 + v.pen2 + v.regularization
    (.ok total, { hist := hist, total := s.total ++ [total], avg := avg })

/-! ### Learning-rate advice -/

/-- python `max(a, b)`. -/
def pyMax (a b : Fl) : Fl := if Fl.lt a b then b else a
/-- python `min(a, b)`. -/
def pyMin (a b : Fl) : Fl := if Fl.lt b a then b else a

/-- `values[-window:]` for `window > 0`; `values[-0:]` is the whole list. -/
def lastWindow (w : ℕ) (l : List Fl) : List Fl := pySlice l (some (-(w : ℤ))) none

/-- `std` as computed in L505: population standard deviation. -/
def flStd (l : List Fl) : Fl :=
  Fl.pow ((l.map fun x => (x - flMean l) * (x - flMean l)).sum / fin (l.length : ℝ)) 0.5

/-- Entries of `get_loss_diagnostics` used by the decision.  A missing key is `none`. -/
structure Diagnostics where
  dominance : Option Fl
  improvement : Option Fl
  stability : Option Fl

/-- python division of floats raises on zero divisors of the length; `none` = ZeroDivisionError. -/
def pyMean (l : List Fl) : Except PyErr Fl := if l = [] then .error .zeroDivisionError else .ok (flMean l)

/-- `get_loss_diagnostics`, L491-533: `none` is the empty dictionary.  (All six histories have the same length, see
C33, so "some history non-empty" is "the total history is non-empty".) -/
def lossDiagnostics (s : LossState) (w : ℕ) : Except PyErr (Option Diagnostics) :=
  if s.total.length < w then .ok none else
  let r : Five (List Fl) := ⟨lastWindow w s.hist.mse, lastWindow w s.hist.coherence, lastWindow w s.hist.pen1,
    lastWindow w s.hist.pen2, lastWindow w s.hist.regularization⟩
  let t := lastWindow w s.total
  if t = [] then .ok none else
  let means := [flMean r.mse, flMean r.coherence, flMean r.pen1, flMean r.pen2, flMean r.regularization]
  let mx := means.tail.foldl pyMax (means.headD 0)
  let mn := means.tail.foldl pyMin (means.headD 0)
  let dom := mx / pyMax mn (fin 1e-8)
  if 2 ≤ t.length then
    match pyMean (t.take (w / 2)), pyMean (t.drop (w / 2)) with
    | .ok early, .ok recent =>
      .ok (some ⟨some dom, some ((early - recent) / pyMax early (fin 1e-8)), some (fin 1 / (fin 1 + flStd t))⟩)
    | .error e, _ => .error e
    | _, .error e => .error e
  else .ok (some ⟨some dom, none, none⟩)

/-- Outcome of `should_adjust_learning_rate`. -/
inductive LRAdvice where
  | insufficientData
  | noDiagnostics
  | stagnation
  | instability
  | dominance
  | healthy
  deriving DecidableEq

/-- The factor in the returned dictionary, if `adjust` is true. -/
def LRAdvice.factor : LRAdvice → Option ℝ
  | .stagnation => some 0.5
  | .instability => some 0.3
  | .dominance => some 0.7
  | _ => none

/-- `should_adjust_learning_rate`, L535-569.  A missing `improvement_ratio` yields the *int* default `0`, which fails
the `isinstance(..., float)` assertion. -/
def shouldAdjust (s : LossState) (epoch w : ℕ) : Except PyErr LRAdvice :=
  if epoch < w then .ok .insufficientData else
  match lossDiagnostics s w with
  | .error e => .error e
  | .ok none => .ok .noDiagnostics
  | .ok (some d) =>
    match d.improvement with
    | none => .error .assertionError
    | some imp =>
      if Fl.lt imp (fin 0.01) then .ok .stagnation
      else if Fl.lt (d.stability.getD (fin 1)) (fin 0.3) then .ok .instability
      else if Fl.lt (fin 100) (d.dominance.getD (fin 1)) then .ok .dominance
      else .ok .healthy

/-! ### Loss balancing -/

/-- `compute_loss_scales`, L351-380: state is the dictionary `loss_scales` (`none` when empty), result the two factors.
`balance_freq = 10`. -/
def computeLossScales (epoch : ℕ) (mse : ℝ) (coh : Option ℝ) (sc : Option (ℝ × ℝ)) : (ℝ × ℝ) × Option (ℝ × ℝ) :=
  let sc' : ℝ × ℝ :=
    match sc with
    | none => (mse, match coh with
        | some c => if c ≠ 0 then c else 1
        | none => 1)
    | some (m, c0) =>
      if epoch % 10 = 0 then
        (0.9 * m + (1 - 0.9) * mse, match coh with
          | some c => if c ≠ 0 then 0.9 * c0 + (1 - 0.9) * c else c0
          | none => c0)
      else (m, c0)
  ((1 / max sc'.1 1e-8, 1 / max sc'.2 1e-8), some sc')

end
end Verif
