import Verif.Model.Rounded
import Verif.Model.Loss

/-!
# The complete training loss in rounded arithmetic

`drdmannturb/spectra_fitting/loss_functions.py`.  Arrays are tables of `m` components and `n` wavenumbers.

Simplifications: the coefficients, `zref`, the number of entries and the literals `0.5` and `3.0` are converted to the format of the
tensors without error; every sum may be nested in any way (`Fmt.Summation`).
-/

namespace Verif

noncomputable section

namespace Fmt
variable (A : Fmt)

/-- A tensor of `m` rows and `n` columns. -/
def grid (m n : ℕ) (f : ℕ → ℕ → ℝ) : List (List ℝ) := (List.range m).map fun i => (List.range n).map fun j => f i j

/-- `self.h1 = torch.diff(self.logk1)`, L60-61. -/
def step1 (k : ℕ → ℝ) (j : ℕ) : ℝ := A.sub (A.logF (k (j + 1))) (A.logF (k j))

/-- `0.5 * (self.logk1[:-1] + self.logk1[1:])`, L62. -/
def middle (k : ℕ → ℝ) (j : ℕ) : ℝ := A.mul 0.5 (A.add (A.logF (k j)) (A.logF (k (j + 1))))

/-- `self.h2 = torch.diff(0.5 * (self.logk1[:-1] + self.logk1[1:]))`, L62. -/
def step2 (k : ℕ → ℝ) (j : ℕ) : ℝ := A.sub (A.middle k (j + 1)) (A.middle k j)

/-- `torch.diff(torch.log(torch.abs(y)), dim=-1) / self.h1`, L187-188 and L217-218, one component. -/
def slopeOf (k y : ℕ → ℝ) (j : ℕ) : ℝ := A.div (A.sub (A.logF |y (j + 1)|) (A.logF |y j|)) (A.step1 k j)

/-- `torch.diff(torch.diff(logy, dim=-1) / self.h1, dim=-1) / self.h2`, L188, one component. -/
def curvatureOf (k y : ℕ → ℝ) (j : ℕ) : ℝ := A.div (A.sub (A.slopeOf k y (j + 1)) (A.slopeOf k y j)) (A.step2 k j)

/-- `l` may be returned by `Pen1stOrder`, L217-220: `alpha_pen1 * mean(relu(d1logy).square()) / zref`. -/
def Pen1Of (α zref : ℝ) (m n : ℕ) (k : ℕ → ℝ) (y : ℕ → ℕ → ℝ) (l : ℝ) (d : ℕ) : Prop :=
  let sq := (grid m (n - 1) fun i j => A.sq (max (A.slopeOf k (y i) j) 0)).flatten
  ∃ s, Summation A sq s d ∧ l = A.div (A.mul α (A.div s sq.length)) zref

/-- `l` may be returned by `Pen2ndOrder`, L187-190: `alpha_pen2 * mean(relu(d2logy).square()) / zref**2`. -/
def Pen2Of (α zref : ℝ) (m n : ℕ) (k : ℕ → ℝ) (y : ℕ → ℕ → ℝ) (l : ℝ) (d : ℕ) : Prop :=
  let sq := (grid m (n - 2) fun i j => A.sq (max (A.curvatureOf k (y i) j) 0)).flatten
  ∃ s, Summation A sq s d ∧ l = A.div (A.mul α (A.div s sq.length)) (A.sq zref)

/-- `l` may be returned by `CoherenceLoss`, L324-332: `gamma_coherence * ((mse_u + mse_v + mse_w) / 3.0)`, with sums nested at most
`d` deep. -/
def CohOf (γ : ℝ) (a b : ℕ) (M D : Fin 3 → ℕ → ℕ → ℝ) (l : ℝ) (d : ℕ) : Prop :=
  ∃ mu mv mw, (∃ d' ≤ d, A.MsdOf (grid a b (M 0)) (grid a b (D 0)) mu d') ∧
    (∃ d' ≤ d, A.MsdOf (grid a b (M 1)) (grid a b (D 1)) mv d') ∧
    (∃ d' ≤ d, A.MsdOf (grid a b (M 2)) (grid a b (D 2)) mw d') ∧ l = A.mul γ (A.div (A.add (A.add mu mv) mw) 3)

/-- `L` may be returned by `eval`, L392-435, when network parameters and coherence data are passed: a term whose coefficient is not
positive is `0`, and `mse_loss + coherence_loss + pen1_loss + pen2_loss + reg_loss` is evaluated from left to right; every sum is
nested at most `d` deep. -/
def LossOf (p : LossParams) (zref : ℝ) (m n a b : ℕ) (k : ℕ → ℝ) (y t : ℕ → ℕ → ℝ) (M D : Fin 3 → ℕ → ℕ → ℝ) (θ : List ℝ)
    (L : ℝ) (d : ℕ) : Prop :=
  ∃ l1 l2 l3 l4 l5, (∃ d' ≤ d, A.MseOf (grid m n y) (grid m n t) l1 d') ∧
    (if 0 < p.gammaCoherence then A.CohOf p.gammaCoherence a b M D l2 d else l2 = 0) ∧
    (if 0 < p.alphaPen1 then ∃ d' ≤ d, A.Pen1Of p.alphaPen1 zref m n k y l3 d' else l3 = 0) ∧
    (if 0 < p.alphaPen2 then ∃ d' ≤ d, A.Pen2Of p.alphaPen2 zref m n k y l4 d' else l4 = 0) ∧
    (if 0 < p.betaReg then ∃ d' ≤ d, A.RegOf p.betaReg θ l5 d' else l5 = 0) ∧
    L = A.add (A.add (A.add (A.add l1 l2) l3) l4) l5

/-- `eval` without network parameters and coherence data: those two terms are `0`. -/
def LossSpectraOf (p : LossParams) (zref : ℝ) (m n : ℕ) (k : ℕ → ℝ) (y t : ℕ → ℕ → ℝ) (L : ℝ) (d : ℕ) : Prop :=
  ∃ l1 l3 l4, (∃ d' ≤ d, A.MseOf (grid m n y) (grid m n t) l1 d') ∧
    (if 0 < p.alphaPen1 then ∃ d' ≤ d, A.Pen1Of p.alphaPen1 zref m n k y l3 d' else l3 = 0) ∧
    (if 0 < p.alphaPen2 then ∃ d' ≤ d, A.Pen2Of p.alphaPen2 zref m n k y l4 d' else l4 = 0) ∧
    L = A.add (A.add (A.add (A.add l1 0) l3) l4) 0

end Fmt
end
end Verif
