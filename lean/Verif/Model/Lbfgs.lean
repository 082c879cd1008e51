import Mathlib.Data.Matrix.Mul
import Mathlib.Analysis.Normed.Group.Constructions
import Verif.Model.Adam

/-!
# The default optimiser of a fit

`torch.optim.LBFGS` with `line_search_fn="strong_wolfe"`, `max_iter=wolfe_iter_count` and `history_size=max_epochs`
(calibration.py L405-412), written out as the update rules of `torch/optim/lbfgs.py` over exact reals (`tolerance_grad = 1e-7`,
`tolerance_change = 1e-9`, `max_eval = max_iter * 5 // 4`; in the line search `c1 = 1e-4`, `c2 = 0.9`, `max_ls = 25`).  The
closure is a function giving a finite loss and a finite gradient at every point; nothing relates the gradient to the loss.  Only the
interpolated step length can become NaN (`0 / 0` in the interpolation formula), which is kept: `none` below.
-/

namespace Verif
open Fl

noncomputable section
open Classical

/-- Parameter vectors and gradients. -/
abbrev PVec (N : ℕ) := Fin N → ℝ

/-- Loss and gradient at a point. -/
abbrev Oracle (N : ℕ) := PVec N → ℝ × PVec N

/-- One evaluation along the search direction: step length, loss, gradient, directional derivative. -/
structure Trial (N : ℕ) where
  t : ℝ
  f : ℝ
  g : PVec N
  gtd : ℝ

/-- `obj_func(x, t, d)` (`_directional_evaluate`) and `gtd_new = g_new.dot(d)`. -/
def trialAt {N : ℕ} (F : Oracle N) (x d : PVec N) (t : ℝ) : Trial N :=
  ⟨t, (F (x + t • d)).1, (F (x + t • d)).2, (F (x + t • d)).2 ⬝ᵥ d⟩

/-- `_cubic_interpolate(x1, f1, g1, x2, f2, g2, bounds=(lo, hi))`.  The quotients are those of torch scalars, so division by zero
gives an infinity or NaN; infinities are clamped to the bounds. -/
def cubicInterpolate (x1 f1 g1 x2 f2 g2 lo hi : ℝ) : Fl :=
  let d1 := fin (g1 + g2) - fin (3 * (f1 - f2)) / fin (x1 - x2)
  let d2sq := d1 * d1 - fin (g1 * g2)
  if Fl.lt d2sq (fin 0) ∨ d2sq = nan then fin ((lo + hi) / 2) else
    let d2 := Fl.pow d2sq 0.5
    let pos := if x1 ≤ x2
      then fin x2 - fin (x2 - x1) * ((fin g2 + d2 - d1) / (fin (g2 - g1) + fin 2 * d2))
      else fin x1 - fin (x1 - x2) * ((fin g1 + d2 - d1) / (fin (g1 - g2) + fin 2 * d2))
    pyMin (pyMax pos (fin lo)) (fin hi)

/-- Outcome of the bracketing phase of `_strong_wolfe`: the bracket (two equal entries if the Wolfe conditions hold already),
`done`, the line search iterations left and the points evaluated. -/
structure Bracket (N : ℕ) where
  a : Trial N
  b : Trial N
  done : Bool
  left : ℕ
  queries : List (PVec N)

/-- Bracketing phase of `_strong_wolfe`: `left = max_ls - ls_iter`, `prev` and `cur` are the last two trials, `start` is the trial at
step 0 (loss `f`, slope `gtd`), `qs` the points evaluated so far.  `none`: the next step length is NaN. -/
def bracketing {N : ℕ} (F : Oracle N) (x d : PVec N) (start : Trial N) :
    (left iter : ℕ) → (prev cur : Trial N) → List (PVec N) → List (PVec N) × Option (Bracket N)
  | 0, _, _, cur, qs => (qs, some ⟨start, cur, false, 0, qs⟩)
  | left + 1, iter, prev, cur, qs =>
    if start.f + 1e-4 * cur.t * start.gtd < cur.f ∨ (1 < iter ∧ prev.f ≤ cur.f) then
      (qs, some ⟨prev, cur, false, left + 1, qs⟩)
    else if |cur.gtd| ≤ -0.9 * start.gtd then (qs, some ⟨cur, cur, true, left + 1, qs⟩)
    else if 0 ≤ cur.gtd then (qs, some ⟨prev, cur, false, left + 1, qs⟩)
    else
      match cubicInterpolate prev.t prev.f prev.gtd cur.t cur.f cur.gtd (cur.t + 0.01 * (cur.t - prev.t)) (cur.t * 10) with
      | fin t => bracketing F x d start left (iter + 1) cur (trialAt F x d t) (qs ++ [x + t • d])
      | _ => (qs, none)

/-- The correction of an interpolated step that lies close to an end of the bracket `[lo, hi]`, with the flag `insuf_progress`. -/
def safeguard (lo hi t : ℝ) (insuf : Bool) : ℝ × Bool :=
  let eps := 0.1 * (hi - lo)
  if min (hi - t) (t - lo) < eps then
    if insuf = true ∨ hi ≤ t ∨ t ≤ lo then
      (if |t - hi| < |t - lo| then hi - eps else lo + eps, false)
    else (t, true)
  else (t, false)

/-- Zoom phase of `_strong_wolfe`: bracket entries `a`, `b`; `low` says that entry `a` is the lower one.  Returns the accepted
trial. -/
def zoom {N : ℕ} (F : Oracle N) (x d : PVec N) (start : Trial N) :
    (left : ℕ) → (a b : Trial N) → (low insuf : Bool) → List (PVec N) → List (PVec N) × Option (Trial N)
  | 0, a, b, low, _, qs => (qs, some (if low then a else b))
  | left + 1, a, b, low, insuf, qs =>
    if |b.t - a.t| * ‖d‖ < 1e-9 then (qs, some (if low then a else b)) else
    match cubicInterpolate a.t a.f a.gtd b.t b.f b.gtd (min a.t b.t) (max a.t b.t) with
    | fin t0 =>
      let r := safeguard (min a.t b.t) (max a.t b.t) t0 insuf
      let p := trialAt F x d r.1
      let qs := qs ++ [x + r.1 • d]
      let lo := if low then a else b
      let hi := if low then b else a
      if start.f + 1e-4 * p.t * start.gtd < p.f ∨ lo.f ≤ p.f then
        -- the upper entry is replaced, the order of the entries is decided again
        let a' := if low then a else p
        let b' := if low then p else b
        zoom F x d start left a' b' (decide (a'.f ≤ b'.f)) r.2 qs
      else if |p.gtd| ≤ -0.9 * start.gtd then (qs, some p)
      else
        -- the lower entry is replaced
        let hi' := if 0 ≤ p.gtd * (hi.t - lo.t) then lo else hi
        zoom F x d start left (if low then p else hi') (if low then hi' else p) low r.2 qs
    | _ => (qs, none)

/-- `_strong_wolfe(obj_func, x, t, d, f, g, gtd)`: the points evaluated and the accepted trial. -/
def strongWolfe {N : ℕ} (F : Oracle N) (x d : PVec N) (t f : ℝ) (g : PVec N) (gtd : ℝ) :
    List (PVec N) × Option (Trial N) :=
  let start : Trial N := ⟨0, f, g, gtd⟩
  match bracketing F x d start 25 0 start (trialAt F x d t) [x + t • d] with
  | (qs, none) => (qs, none)
  | (qs, some br) =>
    if br.done then (qs, some br.a)
    else zoom F x d start br.left br.a br.b (decide (br.a.f ≤ br.b.f)) false qs

/-- A stored correction: `old_dirs`, `old_stps`, `ro`. -/
structure Correction (N : ℕ) where
  y : PVec N
  s : PVec N
  ro : ℝ

/-- The two-loop recursion; the corrections are listed newest first. -/
def twoLoop {N : ℕ} (hdiag : ℝ) : List (Correction N) → PVec N → PVec N
  | [], q => hdiag • q
  | c :: older, q =>
    let al := (c.s ⬝ᵥ q) * c.ro
    let r := twoLoop hdiag older (q - al • c.y)
    let be := (c.y ⬝ᵥ r) * c.ro
    r + (al - be) • c.s

/-- The optimiser's memory after its first iteration: `d`, `t`, corrections (newest first), `H_diag`, `prev_flat_grad`. -/
structure LbMem (N : ℕ) where
  d : PVec N
  t : ℝ
  corr : List (Correction N)
  hdiag : ℝ
  prevGrad : PVec N

/-- The stored corrections and `H_diag` after seeing the gradient `g` (`y = g - prev_g`, `s = d t`); the oldest correction is dropped
when `histSize` are stored. -/
def LbMem.update {N : ℕ} (histSize : ℕ) (m : LbMem N) (g : PVec N) : List (Correction N) × ℝ :=
  let y := g - m.prevGrad
  let s := m.t • m.d
  if 1e-10 < y ⬝ᵥ s then
    (⟨y, s, 1 / (y ⬝ᵥ s)⟩ :: (if m.corr.length = histSize then m.corr.dropLast else m.corr), (y ⬝ᵥ s) / (y ⬝ᵥ y))
  else (m.corr, m.hdiag)

/-- Direction and initial step length of an iteration, with the corrections and `H_diag` used; `mem = none` in the very first
iteration of the optimiser. -/
def lbDirection {N : ℕ} (histSize : ℕ) (lr : ℝ) (mem : Option (LbMem N)) (g : PVec N) : PVec N × ℝ × List (Correction N) × ℝ :=
  match mem with
  | none => (-g, min 1 (1 / ∑ i, |g i|) * lr, [], 1)
  | some m =>
    let u := m.update histSize g
    (twoLoop u.2 u.1 (-g), lr, u.1, u.2)

/-- Outcome of `LBFGS.step`: the points at which the closure was evaluated, and the parameters and memory it leaves (`none`: a step
length was NaN). -/
structure LbOut (N : ℕ) where
  queries : List (PVec N)
  result : Option (PVec N × Option (LbMem N))

/-- The iterations of `LBFGS.step`: `left = max_iter - n_iter`, `evals = current_evals`, `loss`, `g` belong to `x`. -/
def lbLoop {N : ℕ} (F : Oracle N) (histSize maxEval : ℕ) (lr : ℝ) :
    (left evals : ℕ) → Option (LbMem N) → (x : PVec N) → (loss : ℝ) → (g : PVec N) → List (PVec N) → LbOut N
  | 0, _, mem, x, _, _, qs => ⟨qs, some (x, mem)⟩
  | left + 1, evals, mem, x, loss, g, qs =>
    let dir := lbDirection histSize lr mem g
    let d := dir.1
    let gtd := g ⬝ᵥ d
    if -1e-9 < gtd then ⟨qs, some (x, some ⟨d, dir.2.1, dir.2.2.1, dir.2.2.2, g⟩)⟩ else
    match strongWolfe F x d dir.2.1 loss g gtd with
    | (ls, none) => ⟨qs ++ ls, none⟩
    | (ls, some p) =>
      let x' := x + p.t • d
      let mem' := some ⟨d, p.t, dir.2.2.1, dir.2.2.2, g⟩
      if left = 0 ∨ maxEval ≤ evals + ls.length ∨ ‖p.g‖ ≤ 1e-7 ∨ ‖p.t • d‖ ≤ 1e-9 ∨ |p.f - loss| < 1e-9 then
        ⟨qs ++ ls, some (x', mem')⟩
      else lbLoop F histSize maxEval lr left (evals + ls.length) mem' x' p.f p.g (qs ++ ls)

/-- `LBFGS.step(closure)` with learning rate `lr`, from the parameters `x`. -/
def lbStep {N : ℕ} (F : Oracle N) (maxIter histSize : ℕ) (lr : ℝ) (mem : Option (LbMem N)) (x : PVec N) : LbOut N :=
  if ‖(F x).2‖ ≤ 1e-7 then ⟨[x], some (x, mem)⟩
  else lbLoop F histSize (maxIter * 5 / 4) lr maxIter 1 mem x (F x).1 (F x).2 [x]

/-! ### The fitting loop with this optimiser -/

/-- A list of numbers as a vector. -/
def vecOf (N : ℕ) (l : List ℝ) : PVec N := fun i => l.getD i 0

/-- What the closure (calibration.py L443-489) gives at a parameter vector: the loss and the gradient left by `backward`.  Meaningful
where both are finite (`Spec.FiniteFit`). -/
def fitOracle (cfg : TrainCfg) (D : GradRule) (st : TrainState) (N : ℕ) : Oracle N := fun θ =>
  ((match (closure cfg (List.ofFn θ) st).1 with | .ok v => v.toReal | .error _ => 0),
    fun i => ((backward cfg D st.ops (List.ofFn θ)).getD i (fin 0)).toReal)

/-- What the optimiser does in epoch `e` (calibration.py L487-497): `wolfe` is `prob_params.wolfe_iter_count`, `base` is
`prob_params.learning_rate`. -/
def lbEpoch (cfg : TrainCfg) (D : GradRule) (base : ℝ) (wolfe e : ℕ) (N : ℕ) (mem : Option (LbMem N)) (st : TrainState) : LbOut N :=
  lbStep (fitOracle cfg D st N) wolfe cfg.prob.nepochs (rateAfter base cfg.prob.nepochs st.lrEvents (e - 1)) mem
    (vecOf N (st.ops.paramVec cfg.prob.learnNu))

/-- Epochs `e, …, e+n-1` with `LBFGS` (calibration.py L487-531).  A NaN step length makes all parameters NaN, and the next loss
evaluation raises (`ValueError`, loss_functions.py); the state keeps the last finite parameters instead of NaN. -/
def runEpochsL (cfg : TrainCfg) (D : GradRule) (base : ℝ) (wolfe N : ℕ) : ℕ → ℕ → Option (LbMem N) → TrainM Unit
  | _, 0, _, st => (.ok (), st)
  | e, n + 1, mem, st =>
    let o := lbEpoch cfg D base wolfe e N mem st
    match o.result with
    | none =>
      match closures cfg (o.queries.map List.ofFn) st with
      | (.error err, st) => (.error err, st)
      | (.ok _, st) => (.error .valueError, st)
    | some (x, mem') =>
      match runEpoch cfg e ⟨o.queries.map List.ofFn, List.ofFn x⟩ st with
      | (.error err, st) => (.error err, st)
      | (.ok true, st) => (.ok (), st)
      | (.ok false, st') => runEpochsL cfg D base wolfe N (e + 1) n mem' st'

/-- `calibrate` with the default optimiser (calibration.py L264-549). -/
def calibrateL (cfg : TrainCfg) (D : GradRule) (base : ℝ) (wolfe : ℕ) (ops : OPS) : Except PyErr Calibrated × TrainState :=
  match calibrateStart cfg ops with
  | (.error e, st) => (.error e, st)
  | (.ok _, st) =>
    match runEpochsL cfg D base wolfe (st.ops.paramVec cfg.prob.learnNu).length 1 cfg.prob.nepochs none st with
    | (.error e, st) => (.error e, st)
    | (.ok _, st) => (.ok (calibratedParams cfg.prob.learnable (st.ops.paramVec cfg.prob.learnNu)), st)

end
end Verif
