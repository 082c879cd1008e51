import Mathlib.MeasureTheory.Function.L2Space
import Mathlib.Analysis.SpecialFunctions.Trigonometric.Basic
import Verif.Lemmas.WhiteNoise
import Verif.Model.SamplingScalar

/-!
# C93: covariance of the fields of the sine and cosine transform samplers
-/

namespace Verif
open MeasureTheory

noncomputable section

/-! ### Orthogonality of the discrete sines and cosines -/

theorem sum_cos_half (a : ℝ) (N : ℕ) :
    2 * Real.sin (a / 2) * ∑ n ∈ Finset.range N, Real.cos (a * (n + 1 / 2)) = Real.sin (a * N) := by
  induction N with
  | zero => simp
  | succ N ih =>
    rw [Finset.sum_range_succ, mul_add, ih]
    have h1 : a * ((N + 1 : ℕ) : ℝ) = a * (N + 1 / 2) + a / 2 := by push_cast; ring
    have h2 : a * (N : ℝ) = a * (N + 1 / 2) - a / 2 := by ring
    rw [h1, h2, Real.sin_add, Real.sin_sub]
    ring

/-- Sums of `cos` over the midpoints of `N` cells of the half circle. -/
theorem sum_cos_midpoint {N m : ℕ} (h0 : 0 < m) (hm : m < 2 * N) :
    ∑ n : Fin N, Real.cos (Real.pi * m / N * ((n : ℕ) + 1 / 2)) = 0 := by
  have hN : (0 : ℝ) < N := by
    have : 0 < N := by omega
    exact_mod_cast this
  have h := sum_cos_half (Real.pi * m / N) N
  have hz : Real.sin (Real.pi * m / N * N) = 0 := by
    rw [div_mul_cancel₀ _ hN.ne', mul_comm]
    exact Real.sin_nat_mul_pi m
  have hs : 0 < Real.sin (Real.pi * m / N / 2) := by
    have hmr : (0 : ℝ) < m := by exact_mod_cast h0
    have hm2 : (m : ℝ) < 2 * N := by exact_mod_cast hm
    apply Real.sin_pos_of_pos_of_lt_pi
    · have := Real.pi_pos
      positivity
    · rw [div_div, div_lt_iff₀ (by positivity)]
      have := Real.pi_pos
      nlinarith
  rw [hz] at h
  have := (mul_eq_zero.1 h).resolve_left (by positivity)
  rw [← this, Finset.sum_range (fun n => Real.cos (Real.pi * m / N * ((n : ℝ) + 1 / 2)))]

theorem sum_cos_full (a : ℝ) (N : ℕ) :
    2 * Real.sin (a / 2) * ∑ n ∈ Finset.range N, Real.cos (a * (n + 1)) = Real.sin (a * (N + 1 / 2)) - Real.sin (a / 2) := by
  induction N with
  | zero => simp; ring_nf
  | succ N ih =>
    rw [Finset.sum_range_succ, mul_add, ih]
    have h1 : a * (((N + 1 : ℕ) : ℝ) + 1 / 2) = a * (N + 1) + a / 2 := by push_cast; ring
    have h2 : a * ((N : ℝ) + 1 / 2) = a * (N + 1) - a / 2 := by ring
    rw [h1, h2, Real.sin_add, Real.sin_sub]
    ring

/-- Sums of `cos` over the interior nodes of the half circle. -/
theorem sum_cos_nodes {N m : ℕ} (h0 : 0 < m) (hm : m < 2 * (N + 1)) :
    ∑ n : Fin N, Real.cos (Real.pi * m / (N + 1) * ((n : ℕ) + 1)) = (-1 - (-1) ^ m) / 2 := by
  have hN : (0 : ℝ) < N + 1 := by positivity
  have h := sum_cos_full (Real.pi * m / (N + 1)) N
  have hz : Real.sin (Real.pi * m / (N + 1) * (N + 1 / 2)) =
      -((-1) ^ m * Real.sin (Real.pi * m / (N + 1) / 2)) := by
    have : Real.pi * m / (N + 1) * (N + 1 / 2) = m * Real.pi - Real.pi * m / (N + 1) / 2 := by
      field_simp
      ring
    rw [this, Real.sin_nat_mul_pi_sub]
  have hs : 0 < Real.sin (Real.pi * m / (N + 1) / 2) := by
    have hmr : (0 : ℝ) < m := by exact_mod_cast h0
    have hm2 : (m : ℝ) < 2 * (N + 1) := by exact_mod_cast hm
    apply Real.sin_pos_of_pos_of_lt_pi
    · have := Real.pi_pos
      positivity
    · rw [div_div, div_lt_iff₀ (by positivity)]
      have := Real.pi_pos
      nlinarith
  rw [hz] at h
  have h' : Real.sin (Real.pi * m / (N + 1) / 2) *
      (2 * ∑ n ∈ Finset.range N, Real.cos (Real.pi * m / (N + 1) * ((n : ℝ) + 1))) =
      Real.sin (Real.pi * m / (N + 1) / 2) * (-1 - (-1) ^ m) := by linarith
  have h2 := mul_left_cancel₀ hs.ne' h'
  rw [eq_div_iff (two_ne_zero), mul_comm, ← h2,
    Finset.sum_range (fun n => Real.cos (Real.pi * m / (N + 1) * ((n : ℝ) + 1)))]

/-- Rows of the DST-I matrix are orthogonal with square norm `2 (N + 1)`. -/
theorem dst_orthogonal {N : ℕ} (k l : Fin N) :
    ∑ n, dstMat N k n * dstMat N l n = if k = l then 2 * ((N : ℝ) + 1) else 0 := by
  -- the product as a difference of cosines
  have key : ∀ k l : Fin N, k ≤ l → ∑ n, dstMat N k n * dstMat N l n = if k = l then 2 * ((N : ℝ) + 1) else 0 := by
    intro k l hkl
    have hkl' : (k : ℕ) ≤ l := hkl
    have hp : ∀ n : Fin N, dstMat N k n * dstMat N l n =
        2 * Real.cos (Real.pi * ((l - k : ℕ) : ℝ) / (N + 1) * ((n : ℕ) + 1)) -
        2 * Real.cos (Real.pi * ((k + l + 2 : ℕ) : ℝ) / (N + 1) * ((n : ℕ) + 1)) := by
      intro n
      have e1 : Real.pi * ((l - k : ℕ) : ℝ) / (N + 1) * ((n : ℕ) + 1) =
          Real.pi * ((l + 1 : ℕ) * (n + 1 : ℕ)) / (N + 1 : ℕ) - Real.pi * ((k + 1 : ℕ) * (n + 1 : ℕ)) / (N + 1 : ℕ) := by
        rw [Nat.cast_sub hkl']; push_cast; ring
      have e2 : Real.pi * ((k + l + 2 : ℕ) : ℝ) / (N + 1) * ((n : ℕ) + 1) =
          Real.pi * ((l + 1 : ℕ) * (n + 1 : ℕ)) / (N + 1 : ℕ) + Real.pi * ((k + 1 : ℕ) * (n + 1 : ℕ)) / (N + 1 : ℕ) := by
        push_cast; ring
      rw [e1, e2, Real.cos_sub, Real.cos_add, dstMat, dstMat]
      ring
    have hk := k.isLt
    have hl := l.isLt
    simp only [hp, Finset.sum_sub_distrib, ← Finset.mul_sum]
    rw [sum_cos_nodes (m := (k : ℕ) + l + 2) (by omega) (by omega)]
    by_cases h : k = l
    · subst h
      have he : (-1 : ℝ) ^ ((k : ℕ) + k + 2) = 1 := Even.neg_one_pow ⟨k + 1, by ring⟩
      rw [if_pos rfl, he]
      simp
      ring
    · have hne : (k : ℕ) ≠ l := fun hc => h (Fin.ext hc)
      rw [if_neg h, sum_cos_nodes (m := (l : ℕ) - k) (by omega) (by omega)]
      have he : (-1 : ℝ) ^ ((k : ℕ) + l + 2) = (-1) ^ ((l : ℕ) - k) := by
        have : (k : ℕ) + l + 2 = (l - k) + 2 * (k + 1) := by omega
        rw [this, pow_add, pow_mul]
        simp
      rw [he]
      ring
  rcases le_total k l with h | h
  · exact key k l h
  · rw [show (∑ n, dstMat N k n * dstMat N l n) = ∑ n, dstMat N l n * dstMat N k n from
      Finset.sum_congr rfl fun n _ => mul_comm _ _, key l k h]
    simp only [eq_comm]

/-- Rows of the DCT-II matrix are orthogonal; the first has twice the square norm of the others. -/
theorem dct_orthogonal {N : ℕ} (k l : Fin N) :
    ∑ n, dctMat N k n * dctMat N l n = if k = l then (if (k : ℕ) = 0 then 4 * (N : ℝ) else 2 * N) else 0 := by
  have key : ∀ k l : Fin N, k ≤ l →
      ∑ n, dctMat N k n * dctMat N l n = if k = l then (if (k : ℕ) = 0 then 4 * (N : ℝ) else 2 * N) else 0 := by
    intro k l hkl
    have hkl' : (k : ℕ) ≤ l := hkl
    have hk := k.isLt
    have hl := l.isLt
    have hN : (0 : ℝ) < N := by
      have : 0 < N := by omega
      exact_mod_cast this
    have hp : ∀ n : Fin N, dctMat N k n * dctMat N l n =
        2 * Real.cos (Real.pi * ((l - k : ℕ) : ℝ) / N * ((n : ℕ) + 1 / 2)) +
        2 * Real.cos (Real.pi * ((k + l : ℕ) : ℝ) / N * ((n : ℕ) + 1 / 2)) := by
      intro n
      have e1 : Real.pi * ((l - k : ℕ) : ℝ) / N * ((n : ℕ) + 1 / 2) =
          Real.pi * ((l : ℕ) * (2 * n + 1 : ℕ)) / (2 * N : ℕ) - Real.pi * ((k : ℕ) * (2 * n + 1 : ℕ)) / (2 * N : ℕ) := by
        rw [Nat.cast_sub hkl']; push_cast; field_simp
      have e2 : Real.pi * ((k + l : ℕ) : ℝ) / N * ((n : ℕ) + 1 / 2) =
          Real.pi * ((l : ℕ) * (2 * n + 1 : ℕ)) / (2 * N : ℕ) + Real.pi * ((k : ℕ) * (2 * n + 1 : ℕ)) / (2 * N : ℕ) := by
        push_cast; field_simp; ring
      rw [e1, e2, Real.cos_sub, Real.cos_add, dctMat, dctMat]
      ring
    simp only [hp, Finset.sum_add_distrib, ← Finset.mul_sum]
    by_cases h : k = l
    · subst h
      rw [if_pos rfl]
      by_cases h0 : (k : ℕ) = 0
      · rw [if_pos h0]
        simp [h0]
        ring
      · rw [if_neg h0, sum_cos_midpoint (m := (k : ℕ) + k) (by omega) (by omega)]
        simp
    · have hne : (k : ℕ) ≠ l := fun hc => h (Fin.ext hc)
      rw [if_neg h, sum_cos_midpoint (m := (l : ℕ) - k) (by omega) (by omega),
        sum_cos_midpoint (m := (k : ℕ) + l) (by omega) (by omega)]
      simp
  rcases le_total k l with h | h
  · exact key k l h
  · rw [show (∑ n, dctMat N k n * dctMat N l n) = ∑ n, dctMat N l n * dctMat N k n from
      Finset.sum_congr rfl fun n _ => mul_comm _ _, key l k h]
    by_cases he : l = k
    · subst he; rfl
    · rw [if_neg he, if_neg fun hc => he hc.symm]

/-! ### The fields as weighted sums of the noise -/

variable {n1 n2 n3 : ℕ}

/-- Weight of mode `k` at the point `x`. -/
def trigW (A : Fin n1 → Fin n1 → ℝ) (B : Fin n2 → Fin n2 → ℝ) (C : Fin n3 → Fin n3 → ℝ)
    (x k : Grid3 n1 n2 n3) : ℝ := A x.1 k.1 * B x.2.1 k.2.1 * C x.2.2 k.2.2

theorem sum_rev3 (F : Fin n1 → Fin n2 → Fin n3 → ℝ) : ∑ c, ∑ b, ∑ a, F a b c = ∑ a, ∑ b, ∑ c, F a b c := by
  calc ∑ c, ∑ b, ∑ a, F a b c = ∑ b, ∑ c, ∑ a, F a b c := Finset.sum_comm
    _ = ∑ b, ∑ a, ∑ c, F a b c := Finset.sum_congr rfl fun b _ => Finset.sum_comm
    _ = ∑ a, ∑ b, ∑ c, F a b c := Finset.sum_comm

theorem axes_eq (A : Fin n1 → Fin n1 → ℝ) (B : Fin n2 → Fin n2 → ℝ) (C : Fin n3 → Fin n3 → ℝ)
    (y : Grid3 n1 n2 n3 → ℝ) (x : Grid3 n1 n2 n3) :
    axis2 C (axis1 B (axis0 A y)) x = ∑ k, trigW A B C x k * y k := by
  simp only [axis0, axis1, axis2, trigW, Fintype.sum_prod_type, Finset.mul_sum]
  rw [sum_rev3 fun a b c => C x.2.2 c * (B x.2.1 b * (A x.1 a * y (a, b, c)))]
  refine Finset.sum_congr rfl fun i _ => Finset.sum_congr rfl fun j _ => Finset.sum_congr rfl fun k _ => ?_
  ring

theorem dstCall_eq (S : Grid3 n1 n2 n3 → ℝ) (norm : ℝ) (noise : Grid3 n1 n2 n3 → ℝ) (x : Grid3 n1 n2 n3) :
    dstCall S norm noise x = ∑ k, trigW (dstMat n1) (dstMat n2) (dstMat n3) x k * S k / norm * noise k := by
  simp only [dstCall, axes_eq, Finset.sum_div]
  exact Finset.sum_congr rfl fun k _ => by ring

theorem dctCall_eq (S : Grid3 n1 n2 n3 → ℝ) (norm : ℝ) (noise : Grid3 n1 n2 n3 → ℝ) (x : Grid3 n1 n2 n3) :
    dctCall S norm noise x = ∑ k, trigW (dctMat n1) (dctMat n2) (dctMat n3) x k * S k / norm * noise k := by
  simp only [dctCall, axes_eq, Finset.sum_div]
  exact Finset.sum_congr rfl fun k _ => by ring

variable {Ω : Type} [MeasurableSpace Ω] {μ : Measure Ω}

/-- Covariance of two linear forms of white noise. -/
theorem white_bilinear {ι : Type} [Fintype ι] [DecidableEq ι] (ξ : ι → Ω → ℝ) (hL2 : ∀ k, MemLp (ξ k) 2 μ) (sigma2 : ℝ)
    (hcov : ∀ k l, ∫ ω, ξ k ω * ξ l ω ∂μ = if k = l then sigma2 else 0) (f g : ι → ℝ) :
    ∫ ω, (∑ k, f k * ξ k ω) * (∑ l, g l * ξ l ω) ∂μ = sigma2 * ∑ k, f k * g k := by
  have hi : ∀ k l, Integrable (fun ω => ξ k ω * ξ l ω) μ := fun k l => (hL2 k).integrable_mul (hL2 l)
  simp only [Finset.sum_mul_sum]
  have he : ∀ k l ω, f k * ξ k ω * (g l * ξ l ω) = f k * g l * (ξ k ω * ξ l ω) := fun k l ω => by ring
  simp only [he]
  rw [integral_finsetSum _ fun k _ => integrable_finsetSum _ fun l _ => (hi k l).const_mul _]
  rw [Finset.mul_sum]
  refine Finset.sum_congr rfl fun k _ => ?_
  rw [integral_finsetSum _ fun l _ => (hi k l).const_mul _]
  simp only [integral_const_mul, hcov, mul_ite, mul_zero, Finset.sum_ite_eq, Finset.mem_univ, if_true]
  ring

theorem trigW_orthogonal {A : Fin n1 → Fin n1 → ℝ} {B : Fin n2 → Fin n2 → ℝ} {C : Fin n3 → Fin n3 → ℝ}
    (x y : Grid3 n1 n2 n3) : ∑ k, trigW A B C x k * trigW A B C y k =
      (∑ n, A x.1 n * A y.1 n) * (∑ n, B x.2.1 n * B y.2.1 n) * (∑ n, C x.2.2 n * C y.2.2 n) := by
  have h : ∀ (f : Fin n1 → ℝ) (g : Fin n2 → ℝ) (h : Fin n3 → ℝ),
      (∑ a, f a) * (∑ b, g b) * (∑ c, h c) = ∑ a, ∑ b, ∑ c, f a * g b * h c := by
    intro f g h
    simp only [Finset.sum_mul, Finset.mul_sum]
    exact sum_rev3 fun a b c => f a * g b * h c
  rw [h, Fintype.sum_prod_type]
  refine Finset.sum_congr rfl fun i _ => ?_
  rw [Fintype.sum_prod_type]
  refine Finset.sum_congr rfl fun j _ => Finset.sum_congr rfl fun k _ => ?_
  simp only [trigW]
  ring

/-- **C93** The sine-transform sampler with a constant spectrum `c` returns uncorrelated values, all with the variance of the
noise times `c² 8 (n1+1)(n2+1)(n3+1) / norm²`. -/
theorem C93_dst_white (ξ : Grid3 n1 n2 n3 → Ω → ℝ) (hL2 : ∀ k, MemLp (ξ k) 2 μ) (sigma2 : ℝ)
    (hcov : ∀ k l, ∫ ω, ξ k ω * ξ l ω ∂μ = if k = l then sigma2 else 0) (c norm : ℝ) (x y : Grid3 n1 n2 n3) :
    ∫ ω, dstCall (fun _ => c) norm (fun k => ξ k ω) x * dstCall (fun _ => c) norm (fun k => ξ k ω) y ∂μ =
      if x = y then sigma2 * (c ^ 2 * (8 * ((n1 + 1 : ℝ) * (n2 + 1) * (n3 + 1))) / norm ^ 2) else 0 := by
  simp only [dstCall_eq]
  rw [white_bilinear ξ hL2 sigma2 hcov]
  have he : ∀ k : Grid3 n1 n2 n3, trigW (dstMat n1) (dstMat n2) (dstMat n3) x k * c / norm *
      (trigW (dstMat n1) (dstMat n2) (dstMat n3) y k * c / norm) =
      c ^ 2 / norm ^ 2 * (trigW (dstMat n1) (dstMat n2) (dstMat n3) x k * trigW (dstMat n1) (dstMat n2) (dstMat n3) y k) :=
    fun k => by ring
  simp only [he]
  rw [← Finset.mul_sum, trigW_orthogonal, dst_orthogonal, dst_orthogonal, dst_orthogonal]
  by_cases h : x = y
  · subst h
    simp only [if_true]
    ring
  · rw [if_neg h]
    have : ¬(x.1 = y.1 ∧ x.2.1 = y.2.1 ∧ x.2.2 = y.2.2) := fun hc => h (Prod.ext hc.1 (Prod.ext hc.2.1 hc.2.2))
    by_cases h1 : x.1 = y.1
    · by_cases h2 : x.2.1 = y.2.1
      · have h3 : x.2.2 ≠ y.2.2 := fun h3 => this ⟨h1, h2, h3⟩
        simp [h3]
      · simp [h2]
    · simp [h1]

/-- **C93** The two-point covariance of the sine-transform field, for every spectrum array. -/
theorem C93_dst_covariance (ξ : Grid3 n1 n2 n3 → Ω → ℝ) (hL2 : ∀ k, MemLp (ξ k) 2 μ) (sigma2 : ℝ)
    (hcov : ∀ k l, ∫ ω, ξ k ω * ξ l ω ∂μ = if k = l then sigma2 else 0) (S : Grid3 n1 n2 n3 → ℝ) (norm : ℝ)
    (x y : Grid3 n1 n2 n3) :
    ∫ ω, dstCall S norm (fun k => ξ k ω) x * dstCall S norm (fun k => ξ k ω) y ∂μ =
      sigma2 * (64 / norm ^ 2) * ∑ k, S k ^ 2 *
        (Real.sin (Real.pi * ((x.1 + 1 : ℕ) * (k.1 + 1 : ℕ)) / (n1 + 1 : ℕ)) *
          Real.sin (Real.pi * ((y.1 + 1 : ℕ) * (k.1 + 1 : ℕ)) / (n1 + 1 : ℕ))) *
        (Real.sin (Real.pi * ((x.2.1 + 1 : ℕ) * (k.2.1 + 1 : ℕ)) / (n2 + 1 : ℕ)) *
          Real.sin (Real.pi * ((y.2.1 + 1 : ℕ) * (k.2.1 + 1 : ℕ)) / (n2 + 1 : ℕ))) *
        (Real.sin (Real.pi * ((x.2.2 + 1 : ℕ) * (k.2.2 + 1 : ℕ)) / (n3 + 1 : ℕ)) *
          Real.sin (Real.pi * ((y.2.2 + 1 : ℕ) * (k.2.2 + 1 : ℕ)) / (n3 + 1 : ℕ))) := by
  simp only [dstCall_eq]
  rw [white_bilinear ξ hL2 sigma2 hcov, Finset.mul_sum, Finset.mul_sum]
  refine Finset.sum_congr rfl fun k _ => ?_
  simp only [trigW, dstMat]
  ring

/-- **C93** The sine-transform sampler is not stationary: for the spectrum concentrated in the zero wavenumber, whose
stationary field is constant in space, the first two values along the first axis have different variances on every grid
with at least three points on that axis. -/
theorem C93_dst_not_stationary {m1 m2 m3 : ℕ} (ξ : Grid3 (m1 + 3) (m2 + 1) (m3 + 1) → Ω → ℝ) (hL2 : ∀ k, MemLp (ξ k) 2 μ)
    {sigma2 : ℝ} (hs : 0 < sigma2) (hcov : ∀ k l, ∫ ω, ξ k ω * ξ l ω ∂μ = if k = l then sigma2 else 0)
    {norm : ℝ} (hn : norm ≠ 0) :
    ∫ ω, dstCall (fun k => if k = 0 then 1 else 0) norm (fun k => ξ k ω) 0 ^ 2 ∂μ <
      ∫ ω, dstCall (fun k => if k = 0 then 1 else 0) norm (fun k => ξ k ω) (1, 0, 0) ^ 2 ∂μ := by
  simp only [sq (dstCall _ _ _ _)]
  rw [C93_dst_covariance ξ hL2 sigma2 hcov, C93_dst_covariance ξ hL2 sigma2 hcov]
  have hpi := Real.pi_pos
  have hz : ∀ (x : Grid3 (m1 + 3) (m2 + 1) (m3 + 1)) (f : Grid3 (m1 + 3) (m2 + 1) (m3 + 1) → ℝ),
      ∑ k, (if k = 0 then (1 : ℝ) else 0) ^ 2 * f k = f 0 := by
    intro x f
    rw [Finset.sum_eq_single 0]
    · simp
    · intro k _ hk; simp [hk]
    · simp
  have hp : ∀ N : ℕ, 0 < Real.sin (Real.pi * 1 / (N + 1 + 1 : ℕ)) := by
    intro N
    apply Real.sin_pos_of_pos_of_lt_pi
    · positivity
    · rw [div_lt_iff₀ (by positivity)]
      push_cast
      nlinarith [(Nat.cast_nonneg N : (0 : ℝ) ≤ N)]
  have h12 : Real.sin (Real.pi * 1 / (m1 + 3 + 1 : ℕ)) < Real.sin (Real.pi * 2 / (m1 + 3 + 1 : ℕ)) := by
    have hm : (0 : ℝ) ≤ m1 := Nat.cast_nonneg m1
    apply Real.sin_lt_sin_of_lt_of_le_pi_div_two
    · have : 0 ≤ Real.pi * 1 / (m1 + 3 + 1 : ℕ) := by positivity
      linarith
    · rw [div_le_div_iff₀ (by positivity) (by positivity)]
      push_cast
      nlinarith
    · gcongr
      norm_num
  have h0 := hp (m1 + 2)
  simp only [mul_assoc, hz 0]
  refine mul_lt_mul_of_pos_left ?_ hs
  refine mul_lt_mul_of_pos_left ?_ (by positivity)
  have a2 := hp m2
  have a3 := hp m3
  simp only [Prod.fst_zero, Prod.snd_zero, Fin.val_zero, Fin.val_one, Nat.cast_one, mul_one, zero_add]
  simp only [mul_one] at h12 h0 a2 a3
  norm_num at h12 h0 a2 a3 ⊢
  rw [show (m1 : ℝ) + 2 + 1 = m1 + 3 by ring] at h0
  rw [← mul_assoc (Real.sin (Real.pi / _)), ← mul_assoc (Real.sin (Real.pi * 2 / _))]
  exact mul_lt_mul_of_pos_right (mul_lt_mul'' h12 h12 h0.le h0.le) (by positivity)

/-- **C93** The cosine-transform sampler is not stationary even for a constant spectrum: the variance of a grid value is
multiplied by 2 for every coordinate that is zero. -/
theorem C93_dct_white (ξ : Grid3 n1 n2 n3 → Ω → ℝ) (hL2 : ∀ k, MemLp (ξ k) 2 μ) (sigma2 : ℝ)
    (hcov : ∀ k l, ∫ ω, ξ k ω * ξ l ω ∂μ = if k = l then sigma2 else 0) (c norm : ℝ) (x : Grid3 n1 n2 n3) :
    ∫ ω, dctCall (fun _ => c) norm (fun k => ξ k ω) x ^ 2 ∂μ =
      sigma2 * (c ^ 2 * (8 * ((n1 : ℝ) * n2 * n3)) / norm ^ 2) *
        ((if (x.1 : ℕ) = 0 then 2 else 1) * (if (x.2.1 : ℕ) = 0 then 2 else 1) * (if (x.2.2 : ℕ) = 0 then 2 else 1)) := by
  simp only [dctCall_eq, sq (Finset.sum _ _)]
  rw [white_bilinear ξ hL2 sigma2 hcov]
  have he : ∀ k : Grid3 n1 n2 n3, trigW (dctMat n1) (dctMat n2) (dctMat n3) x k * c / norm *
      (trigW (dctMat n1) (dctMat n2) (dctMat n3) x k * c / norm) =
      c ^ 2 / norm ^ 2 * (trigW (dctMat n1) (dctMat n2) (dctMat n3) x k * trigW (dctMat n1) (dctMat n2) (dctMat n3) x k) :=
    fun k => by ring
  simp only [he]
  rw [← Finset.mul_sum, trigW_orthogonal, dct_orthogonal, dct_orthogonal, dct_orthogonal]
  simp only [if_true]
  split_ifs <;> ring

/-- **C93** For every spectrum array the variance of the cosine-transform field is largest at the corner of the grid: no
other value of the field varies more. -/
theorem C93_dct_corner (ξ : Grid3 n1 n2 n3 → Ω → ℝ) (hL2 : ∀ k, MemLp (ξ k) 2 μ) {sigma2 : ℝ} (hs : 0 ≤ sigma2)
    (hcov : ∀ k l, ∫ ω, ξ k ω * ξ l ω ∂μ = if k = l then sigma2 else 0) (S : Grid3 n1 n2 n3 → ℝ) (norm : ℝ)
    (o : Grid3 n1 n2 n3) (ho : (o.1 : ℕ) = 0 ∧ (o.2.1 : ℕ) = 0 ∧ (o.2.2 : ℕ) = 0) (x : Grid3 n1 n2 n3) :
    ∫ ω, dctCall S norm (fun k => ξ k ω) o ^ 2 ∂μ = sigma2 * (64 * (∑ k, S k ^ 2) / norm ^ 2) ∧
    ∫ ω, dctCall S norm (fun k => ξ k ω) x ^ 2 ∂μ ≤ ∫ ω, dctCall S norm (fun k => ξ k ω) o ^ 2 ∂μ := by
  have hc : ∀ x : Grid3 n1 n2 n3, ∫ ω, dctCall S norm (fun k => ξ k ω) x ^ 2 ∂μ =
      sigma2 * ∑ k, trigW (dctMat n1) (dctMat n2) (dctMat n3) x k ^ 2 * S k ^ 2 / norm ^ 2 := by
    intro x
    simp only [dctCall_eq, sq (Finset.sum _ _)]
    rw [white_bilinear ξ hL2 sigma2 hcov]
    congr 1
    exact Finset.sum_congr rfl fun k _ => by ring
  have h0 : ∀ k, trigW (dctMat n1) (dctMat n2) (dctMat n3) o k = 8 := by
    intro k
    simp only [trigW, dctMat, ho.1, ho.2.1, ho.2.2]
    norm_num
  have hb : ∀ {N : ℕ} (k n : Fin N), dctMat N k n ^ 2 ≤ 4 := by
    intro N k n
    have h1 := Real.cos_sq_le_one (Real.pi * ((k : ℕ) * (2 * n + 1 : ℕ)) / (2 * N : ℕ))
    rw [dctMat]
    nlinarith
  constructor
  · rw [hc]
    congr 1
    rw [Finset.mul_sum, Finset.sum_div]
    exact Finset.sum_congr rfl fun k _ => by rw [h0]; ring
  · rw [hc, hc]
    refine mul_le_mul_of_nonneg_left (Finset.sum_le_sum fun k _ => ?_) hs
    rw [h0]
    have hw : trigW (dctMat n1) (dctMat n2) (dctMat n3) x k ^ 2 ≤ 8 ^ 2 := by
      rw [trigW, mul_pow, mul_pow]
      have a1 := hb x.1 k.1
      have a2 := hb x.2.1 k.2.1
      have a3 := hb x.2.2 k.2.2
      calc _ ≤ (4 : ℝ) * 4 * 4 := by gcongr
        _ = 8 ^ 2 := by norm_num
    gcongr

/-- Independent normal noise on an 8 x 4 x 4 grid, constant spectrum 3: the corner value of the cosine-transform field has
eight times the variance of the value at (1, 1, 1). -/
example : ∫ ω, dctCall (fun _ => 3) 2 (fun k : Grid3 8 4 4 => ω k) 0 ^ 2 ∂(stdNormal (Grid3 8 4 4)) =
    8 * ∫ ω, dctCall (fun _ => 3) 2 (fun k : Grid3 8 4 4 => ω k) (1, 1, 1) ^ 2 ∂(stdNormal (Grid3 8 4 4)) := by
  have h : ∀ x : Grid3 8 4 4, _ := fun x => C93_dct_white (fun (k : Grid3 8 4 4) (ω : Grid3 8 4 4 → ℝ) => 1 * ω k)
    (stdNormal_memLp 1) (1 ^ 2) (stdNormal_cov 1) 3 2 x
  simp only [one_mul] at h
  rw [h, h]
  norm_num

end
end Verif
