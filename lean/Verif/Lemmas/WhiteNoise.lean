import Mathlib.Probability.Distributions.Gaussian.Real
import Mathlib.Probability.Independence.Integration
import Mathlib.Probability.Independence.Basic
import Mathlib.Probability.Moments.Variance
import Mathlib.MeasureTheory.Integral.Pi

/-!
# Independent normal variables are white noise

The hypotheses on the noise in C81, C82 and C93 hold for what `sample_noise` draws: independent standard normal values
times a constant.
-/

namespace Verif
open MeasureTheory ProbabilityTheory

/-- The law of a finite family of independent standard normal values. -/
noncomputable def stdNormal (ι : Type) [Fintype ι] : Measure (ι → ℝ) := Measure.pi fun _ => gaussianReal 0 1

instance (ι : Type) [Fintype ι] : IsProbabilityMeasure (stdNormal ι) := by
  unfold stdNormal; infer_instance

theorem stdNormal_mp {ι : Type} [Fintype ι] (k : ι) : MeasurePreserving (fun ω : ι → ℝ => ω k) (stdNormal ι) (gaussianReal 0 1) :=
  measurePreserving_eval (fun _ : ι => gaussianReal 0 1) k

theorem stdNormal_memLp {ι : Type} [Fintype ι] (s : ℝ) (k : ι) :
    MemLp (fun ω : ι → ℝ => s * ω k) 2 (stdNormal ι) := by
  have h : MemLp (fun x : ℝ => x) 2 (gaussianReal 0 1) := memLp_id_gaussianReal 2
  exact (h.comp_measurePreserving (stdNormal_mp k)).const_mul s

theorem stdNormal_cov {ι : Type} [Fintype ι] [DecidableEq ι] (s : ℝ) (k l : ι) :
    ∫ ω, (s * ω k) * (s * ω l) ∂(stdNormal ι) = if k = l then s ^ 2 else 0 := by
  have he : ∀ ω : ι → ℝ, (s * ω k) * (s * ω l) = s ^ 2 * (ω k * ω l) := fun ω => by ring
  simp only [he, integral_const_mul]
  by_cases h : k = l
  · subst h
    rw [if_pos rfl]
    have h1 : ∫ ω, ω k * ω k ∂(stdNormal ι) = ∫ x, x * x ∂(gaussianReal 0 1) :=
      integral_comp_eval (μ := fun _ : ι => gaussianReal 0 1) (i := k) (f := fun x : ℝ => x * x)
        (by fun_prop)
    have h2 : ∫ x, x * x ∂(gaussianReal 0 1) = 1 := by
      have := variance_fun_id_gaussianReal (μ := 0) (v := 1)
      rw [variance_of_integral_eq_zero (by fun_prop) integral_id_gaussianReal] at this
      simpa [sq] using this
    rw [h1, h2, mul_one]
  · rw [if_neg h]
    have hind : iIndepFun (fun (i : ι) (ω : ι → ℝ) => ω i) (stdNormal ι) :=
      iIndepFun_pi (μ := fun _ : ι => gaussianReal 0 1) (X := fun _ x => x) fun i => aemeasurable_id
    have h1 := (hind.indepFun h).integral_fun_mul_eq_mul_integral
      (measurable_pi_apply k).aestronglyMeasurable (measurable_pi_apply l).aestronglyMeasurable
    have h0 : ∫ ω, ω k ∂(stdNormal ι) = 0 := by
      have := integral_comp_eval (μ := fun _ : ι => gaussianReal 0 1) (i := k) (f := fun x : ℝ => x) (by fun_prop)
      rw [integral_id_gaussianReal] at this
      exact this
    rw [h1, h0]
    simp

/-- The noise of `sample_noise` for a given standard deviation: square integrable and white. -/
theorem exists_white {ι : Type} [Fintype ι] [DecidableEq ι] (s : ℝ) :
    ∃ ξ : ι → (ι → ℝ) → ℝ, (∀ k, MemLp (ξ k) 2 (stdNormal ι)) ∧
      ∀ k l, ∫ ω, ξ k ω * ξ l ω ∂(stdNormal ι) = if k = l then s ^ 2 else 0 :=
  ⟨fun k ω => s * ω k, stdNormal_memLp s, stdNormal_cov s⟩

end Verif
