import Verif.Model.Sampling
import Verif.Model.Rounded

/-!
# `Sampling_VF_FFTW.__call__` in floating point arithmetic

The Fourier transforms (single precision, threaded, algorithm chosen by FFTW at run time) are described by their accuracy alone: the
root mean square error of the output is at most `η` times the root mean square of the output, as for all algorithms of FFTW with
`η` of the order of the logarithm of the number of points times the unit of the format.
-/

namespace Verif

noncomputable section

variable {n1 n2 n3 : ℕ} [NeZero n1] [NeZero n2] [NeZero n3]

/-- Weight of a mode of the half spectrum: modes beyond `n3/2` are not stored, those strictly inside stand for two. -/
def halfWeight (k : Box n1 n2 n3) : ℝ := if k.2.2.val ≤ n3 / 2 then c2rWeight k else 0

/-- Energy of a half spectrum. -/
def halfEnergy (Y : Box n1 n2 n3 → Fin 3 → ℂ) : ℝ := ∑ k, ∑ i, halfWeight k * ‖Y k i‖ ^ 2

/-- `y` may be returned by `Sampling_VF_FFTW.__call__` (sampling_methods.py L139-150) for the given noise and the computed array
`Sh = Spectrum_half`: transforms of relative accuracy `η`, sums of three products `einsum` of accuracy `ε` relative to the sum of the
moduli, and a final division of relative accuracy `ν`. -/
def VfRounded (Sh : Box n1 n2 n3 → Matrix (Fin 3) (Fin 3) ℂ) (norm : ℝ) (noise : Box n1 n2 n3 → Fin 3 → ℝ) (η ε ν : ℝ)
    (y : Box n1 n2 n3 → Fin 3 → ℝ) : Prop :=
  ∃ (h g : Box n1 n2 n3 → Fin 3 → ℂ) (z : Box n1 n2 n3 → Fin 3 → ℝ),
    -- L142-145
    halfEnergy (fun k l => h k l - fftn (fun x => (noise x l : ℂ)) k) ≤
      η ^ 2 * halfEnergy (fun (k : Box n1 n2 n3) (l : Fin 3) => fftn (fun x => (noise x l : ℂ)) k) ∧
    -- L146
    (∀ k i, ‖g k i - ∑ l, Sh k i l * h k l‖ ≤ ε * ∑ l, ‖Sh k i l‖ * ‖h k l‖) ∧
    -- L147-150
    (∑ x, ∑ i, (z x i - irfftn (fun k => g k i) x) ^ 2 ≤ η ^ 2 * (halfEnergy g / voxels n1 n2 n3)) ∧
    ∀ x i, |y x i - z x i / norm| ≤ ν * |z x i / norm|

/-- `Spectrum_half` for the von Karman kernel, sampling_methods.py L52-54, L136, from computed frequencies `q`. -/
def Fmt.vkHalf (A : Fmt) (L E0 : ℝ) (q : Box n1 n2 n3 → K3) (k : Box n1 n2 n3) : Matrix (Fin 3) (Fin 3) ℂ :=
  fun i l => Complex.I * (A.mul (A.vkMat L E0 (q k) i l) (A.sqrt (voxels n1 n2 n3)) : ℝ)

end
end Verif
