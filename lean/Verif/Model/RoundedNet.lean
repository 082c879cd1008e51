import Verif.Model.NN
import Verif.Model.RoundedShear

/-!
# The eddy lifetime network in floating point arithmetic

`TauNet` and the lifetime of the DRD generator with every operation rounded (`Verif/Num/Round.lean`).  The sums of a layer and of the norm
may be formed in any order; fused multiply-adds, which leave out a rounding of the products, are not described.  The activations are
taken without rounding, which is right for the default `ReLU`.  `Rational` and the weights are in the same format as the wavenumbers.
-/

namespace Verif

noncomputable section
open Classical

namespace Fmt
variable (A : Fmt)

/-- `y` may be the output of the bias-free `nn.Linear` (nn_modules.py L149-156) with weights `W` for the input `x`; `d` bounds the depth
of the sums. -/
def LinearOf (d : ℕ) (W : List (List ℝ)) (x y : List ℝ) : Prop :=
  List.Forall₂ (fun row s => ∃ d' ≤ d, Summation A (List.zipWith A.mul row x) s d') W y

/-- The loop over the hidden layers of `TauNet._mlp_forward`, nn_modules.py L176-177. -/
inductive LayersOf (d : ℕ) : List (List (List ℝ) × (List ℝ → List ℝ)) → List ℝ → List ℝ → Prop
  | nil (x : List ℝ) : LayersOf d [] x x
  | cons {W : List (List ℝ)} {act : List ℝ → List ℝ} {ls : List (List (List ℝ) × (List ℝ → List ℝ))} {x y z : List ℝ}
      (h : A.LinearOf d W x y) (t : LayersOf d ls (act y) z) : LayersOf d ((W, act) :: ls) x z

/-- `y` may be the result of `TauNet._mlp_forward`, nn_modules.py L171-182. -/
def MlpOf (d : ℕ) (net : TauNet) (x y : List ℝ) : Prop :=
  ∃ h out, A.LayersOf d (net.linears.dropLast.zip net.activations) x h ∧ A.LinearOf d (net.linears.getLastD []) h out ∧
    y = List.zipWith A.add x out

/-- `m` may be the result of `tensor.norm(dim=-1)`, nn_modules.py L200. -/
def NormOf (d : ℕ) (x : List ℝ) (m : ℝ) : Prop := ∃ d' ≤ d, ∃ s, Summation A (x.map A.sq) s d' ∧ m = A.sqrt s

/-- `Rational.forward`, nn_modules.py L47-65. -/
def rational (nu x : ℝ) : ℝ :=
  let a := A.sub nu (A.rnd (2 / 3))
  let b := A.div nu 2
  let out := |x|
  A.div (A.powF out a) (A.powF (A.add 1 (A.sq out)) b)

/-- `τ` may be the result of `TauNet.forward`, nn_modules.py L184-202. -/
def ForwardOf (d : ℕ) (net : TauNet) (k : List ℝ) (τ : ℝ) : Prop :=
  ∃ y m, A.MlpOf d net (k.map fun t => |t|) y ∧ A.NormOf d y m ∧ τ = A.rational net.nu m

end Fmt

/-- `b` may be the lifetime that the DRD generator computes at the wavevector `k`, nn_covariance.py L113-119. -/
def ShearFmt.NnBetaOf (A : ShearFmt) (d : ℕ) (net : TauNet) (Gamma h : ℝ) (k : K3) (b : ℝ) : Prop :=
  if A.sumsq k.k1 k.k2 k.k3 = 0 then b = 0
  else ∃ τ, A.ForwardOf d net [A.mul k.k1 h, A.mul k.k2 h, A.mul k.k3 h] τ ∧ b = A.mul Gamma τ

/-- `b` may be the result of `EddyLifetime` of type TAUNET at the wavevector `k`, one_point_spectra.py L507-514: `tau0` is zero
(`InitialGuess_EddyLifetime`, L516-531), `L`, `T` are the computed exponentials. -/
def Fmt.FitNetOf (A : Fmt) (d : ℕ) (net : TauNet) (L T : ℝ) (k : K3) (b : ℝ) : Prop :=
  ∃ τ, A.ForwardOf d net [A.mul k.k1 L, A.mul k.k2 L, A.mul k.k3 L] τ ∧ b = A.mul T (A.add 0 τ)

end
end Verif
