import Verif.Model.RoundedSizes
import Verif.Props.RoundingExact
import Verif.Props.Generator

/-!
# C153: buffer and margin sizes in floating point arithmetic
-/

namespace Verif
open Fl

noncomputable section

/-- What a size `n'` that was computed as the ceiling of `x`, up to a factor `exp (± δ)`, has to do with `x` and with the exact size `n`:
it is positive, covers `x` up to that factor with less than one node in excess, is at most one off, and is exact unless an integer is
nearby. -/
def Spec.CeilNear (δ x : ℝ) (n' n : ℤ) : Prop :=
  1 ≤ n' ∧ x * Real.exp (-δ) ≤ n' ∧ (n' : ℝ) < x * Real.exp δ + 1 ∧ (x * (Real.exp δ - 1) < 1 → |n' - n| ≤ 1) ∧
    ((∀ m : ℤ, x * (Real.exp δ - 1) < |x - m|) → n' = n)

theorem ceil_near {δ x y : ℝ} (h : LogNear δ x y) (hx : 0 < x) : Spec.CeilNear δ x ⌈y⌉ ⌈x⌉ := by
  have hy := h.pos hx
  obtain ⟨b1, b2⟩ := h.bounds hx.le
  have hd := h.sub_le
  rw [abs_of_pos hx] at hd
  have c1 := Int.le_ceil y
  have c2 := Int.ceil_lt_add_one y
  have c3 := Int.le_ceil x
  have c4 := Int.ceil_lt_add_one x
  refine ⟨Int.one_le_ceil_iff.2 hy, b1.trans c1, by linarith, fun hs => ?_, fun hm => ?_⟩
  · obtain ⟨d1, d2⟩ := abs_le.1 hd
    have u1 : ⌈y⌉ ≤ ⌈x⌉ + 1 := Int.ceil_le.2 (by push_cast; linarith)
    have u2 : ⌈x⌉ ≤ ⌈y⌉ + 1 := Int.ceil_le.2 (by push_cast; linarith)
    rw [abs_le]
    constructor <;> omega
  · rw [Int.ceil_eq_iff]
    have m1 := hm ⌈x⌉
    have m2 := hm (⌈x⌉ - 1)
    obtain ⟨d1, d2⟩ := abs_le.1 hd
    rw [abs_of_nonpos (by linarith)] at m1
    push_cast at m2
    rw [abs_of_pos (by linarith)] at m2
    constructor <;> linarith

theorem bufferSize_near (A : Fmt) {T L d : ℝ} (hT : 0 < T) (hL : 0 < L) (hd : 0 < d) (l : ℕ) :
    Spec.CeilNear (4 * A.e) (3 * T * L / (d / (2 ^ l + 1 : ℕ))) (A.bufferSize T L d l) ⌈3 * T * L / (d / (2 ^ l + 1 : ℕ))⌉ := by
  have h1 := A.mul_near (A.mul_near (LogNear.refl 3) (LogNear.refl T)) (LogNear.refl L)
  have h2 := A.div_near (LogNear.refl d) (LogNear.refl ((2 ^ l + 1 : ℕ) : ℝ))
  have h := (A.div_near h1 h2).mono (le_of_eq (by ring : _ = 4 * A.e))
  exact ceil_near h (by positivity)

theorem marginSize_near (A : Fmt) {L d : ℝ} (hL : 0 < L) (hd : 0 < d) (l : ℕ) :
    Spec.CeilNear (2 * A.e) (L / (d / (2 ^ l + 1 : ℕ))) (A.marginSize L d l) ⌈L / (d / (2 ^ l + 1 : ℕ))⌉ := by
  have h2 := A.div_near (LogNear.refl d) (LogNear.refl ((2 ^ l + 1 : ℕ) : ℝ))
  have h := (A.div_near (LogNear.refl L) h2).mono (le_of_eq (by ring : _ = 2 * A.e))
  exact ceil_near h (by positivity)

variable {env : GenEnv} {a : GenArgs} {g : Gen} {q : ℕ}

/-- **C153** Buffer and margins in floating point arithmetic.  For a generator with length scale `L` and time scale `T`, the computed numbers
of buffer planes and margin planes are positive, cover `3 T L` and `L` up to a relative error of four and two units with less than one plane
in excess, differ from the exact numbers by at most one if the exact quotients are smaller than the reciprocal of the relative error, and are
the exact ones unless an integer is that close to the exact quotient. -/
theorem C153_sizes (A : Fmt) (ha : a.PosScales) (h : genInit env a = (.ok g, q)) {kernel : GenKernel} {L T : ℝ}
    (hs : genScales env a = .ok (kernel, L, T)) :
    Spec.CeilNear (4 * A.e) (3 * T * L / (a.d1 / (2 ^ a.l1 + 1 : ℕ))) (A.bufferSize T L a.d1 a.l1) g.nb ∧
    Spec.CeilNear (2 * A.e) (L / (a.d2 / (2 ^ a.l2 + 1 : ℕ))) (A.marginSize L a.d2 a.l2) g.my ∧
    Spec.CeilNear (2 * A.e) (L / (a.d3 / (2 ^ a.l3 + 1 : ℕ))) (A.marginSize L a.d3 a.l3) g.mz := by
  obtain ⟨kernel', L', T', hs', -, -, -, -, -, ⟨-, b1, b2, b3⟩, -⟩ := genInit_ok h
  rw [hs] at hs'
  simp only [Except.ok.injEq, Prod.mk.injEq] at hs'
  obtain ⟨-, rfl, rfl⟩ := hs'
  obtain ⟨hL, hT⟩ := genScales_pos ha hs
  rw [b1, b2, b3]
  exact ⟨bufferSize_near A hT hL ha.1.1 _, marginSize_near A hL ha.1.2.1 _, marginSize_near A hL ha.1.2.2 _⟩

/-- **C153** In exact arithmetic the computed sizes are those of the model. -/
theorem C153_exact (h : genInit env a = (.ok g, q)) {kernel : GenKernel} {L T : ℝ} (hs : genScales env a = .ok (kernel, L, T)) :
    Fmt.exact.bufferSize T L a.d1 a.l1 = g.nb ∧ Fmt.exact.marginSize L a.d2 a.l2 = g.my ∧ Fmt.exact.marginSize L a.d3 a.l3 = g.mz := by
  obtain ⟨kernel', L', T', hs', -, -, -, -, -, ⟨-, b1, b2, b3⟩, -⟩ := genInit_ok h
  rw [hs] at hs'
  simp only [Except.ok.injEq, Prod.mk.injEq] at hs'
  obtain ⟨-, rfl, rfl⟩ := hs'
  rw [b1, b2, b3]
  exact ⟨rfl, rfl, rfl⟩

/-- Every number rounded up by the factor `1 + u`. -/
def inflated (u : ℝ) (h0 : 0 ≤ u) (h1 : u < 1) : Fmt where
  rnd x := x * (1 + u)
  u := u
  v := u
  expF := Real.exp
  logF := Real.log
  powF := fun x y => x ^ y
  u0 := h0
  uv := le_rfl
  v1 := h1
  err x := by
    rw [show x * (1 + u) - x = u * x by ring, abs_mul, abs_of_nonneg h0]
  odd x := by ring
  exp_err x := by rw [sub_self, abs_zero]; positivity
  log_err x := by rw [sub_self, abs_zero]; positivity
  pow_err x y := by intros; rw [sub_self, abs_zero]; positivity

/-- **C153** The condition is needed: however small the rounding errors, a buffer that fits exactly can come out one plane longer. -/
theorem C153_jump {u : ℝ} (h0 : 0 < u) (h1 : u ≤ 1 / 10) :
    ∃ A : Fmt, A.u = u ∧ A.bufferSize 1 1 2 0 = 4 ∧ ⌈(3 * 1 * 1 / (2 / (2 ^ 0 + 1 : ℕ)) : ℝ)⌉ = 3 := by
  refine ⟨inflated u h0.le (by linarith), rfl, ?_, ?_⟩
  · unfold Fmt.bufferSize Fmt.spacing
    rw [Int.ceil_eq_iff]
    have e : (inflated u h0.le (by linarith)).div ((inflated u h0.le (by linarith)).mul ((inflated u h0.le (by linarith)).mul 3 1) 1)
        ((inflated u h0.le (by linarith)).div 2 (2 ^ 0 + 1 : ℕ)) = 3 * (1 + u) ^ 2 := by
      simp only [Fmt.div, Fmt.mul, inflated]
      have : (1 + u) ≠ 0 := by positivity
      push_cast
      field_simp
    rw [e]
    push_cast
    constructor <;> nlinarith
  · rw [Int.ceil_eq_iff]
    norm_num

/-- A case in double precision: `L = 25`, `T = 2.7`, a box of 1000 m with 129 planes: the quotient is 26.1225, so the buffer has 27 planes. -/
example (A : Fmt) (hv : A.v ≤ 1 / 2 ^ 52) : A.bufferSize 2.7 25 1000 7 = 27 := by
  have h := A.e_le
  have hq : A.v / (1 - A.v) ≤ 2.23e-16 := by
    rw [div_le_iff₀ (by linarith)]
    linarith
  have he : 4 * A.e ≤ 1e-15 := by linarith
  have e0 := A.e_nonneg
  have hx := ScaleNear.exp_sub_one_le (a := 4 * A.e) (by positivity) (by linarith)
  have n := bufferSize_near A (T := 2.7) (L := 25) (d := 1000) (by norm_num) (by norm_num) (by norm_num) 7
  have ex : (3 * 2.7 * 25 / (1000 / (2 ^ 7 + 1 : ℕ)) : ℝ) = 26.1225 := by norm_num
  rw [ex] at n
  have hc : ⌈(26.1225 : ℝ)⌉ = 27 := by rw [Int.ceil_eq_iff]; norm_num
  rw [hc] at n
  refine n.2.2.2.2 fun m => ?_
  have small : (26.1225 : ℝ) * (Real.exp (4 * A.e) - 1) < 1 / 10 := by linarith
  refine small.trans_le ?_
  rcases le_or_gt m 26 with hm | hm
  · have : (m : ℝ) ≤ 26 := by exact_mod_cast hm
    rw [abs_of_nonneg (by linarith)]
    linarith
  · have : (27 : ℝ) ≤ m := by exact_mod_cast hm
    rw [abs_of_nonpos (by linarith)]
    linarith

end
end Verif
