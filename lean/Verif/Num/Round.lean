import Mathlib.Analysis.SpecialFunctions.Pow.Real
import Mathlib.Analysis.SpecialFunctions.Log.Basic
import Mathlib.Data.Int.Log
import Mathlib.Algebra.Order.Round
import Mathlib.Tactic.Positivity
import Mathlib.Tactic.FieldSimp

/-!
# Rounded arithmetic

The other modules use exact real arithmetic.  Here every operation rounds.  `Fmt` is the usual model of floating point
arithmetic: the result of `+ - * / sqrt` is the exact result rounded with relative error at most `u`, changing the sign of a
number commutes with rounding, and the library functions have relative error at most `v`.

Simplification: exponents are unbounded, that is, no intermediate result overflows or is subnormal.
-/

namespace Verif

noncomputable section

/-- A floating point format with its elementary functions (IEEE 754 binary32/binary64 with torch or numpy kernels). -/
structure Fmt where
  /-- rounding to the format -/
  rnd : ℝ → ℝ
  /-- unit roundoff -/
  u : ℝ
  /-- accuracy of the library functions -/
  v : ℝ
  /-- `torch.exp` -/
  expF : ℝ → ℝ
  /-- `torch.log`, `np.log` -/
  logF : ℝ → ℝ
  /-- `**` with a real exponent -/
  powF : ℝ → ℝ → ℝ
  u0 : 0 ≤ u
  uv : u ≤ v
  v1 : v < 1
  err : ∀ x, |rnd x - x| ≤ u * |x|
  odd : ∀ x, rnd (-x) = -rnd x
  exp_err : ∀ x, |expF x - Real.exp x| ≤ v * Real.exp x
  log_err : ∀ x, |logF x - Real.log x| ≤ v * |Real.log x|
  pow_err : ∀ x y, 0 < x → |powF x y - x ^ y| ≤ v * x ^ y

namespace Fmt

/-- `x + y`. -/
def add (A : Fmt) (x y : ℝ) : ℝ := A.rnd (x + y)
/-- `x - y`. -/
def sub (A : Fmt) (x y : ℝ) : ℝ := A.rnd (x - y)
/-- `x * y`. -/
def mul (A : Fmt) (x y : ℝ) : ℝ := A.rnd (x * y)
/-- `x / y`. -/
def div (A : Fmt) (x y : ℝ) : ℝ := A.rnd (x / y)
/-- `x ** 2`, evaluated as `x * x` by torch and numpy. -/
def sq (A : Fmt) (x : ℝ) : ℝ := A.rnd (x * x)
/-- `sqrt x`. -/
def sqrt (A : Fmt) (x : ℝ) : ℝ := A.rnd (Real.sqrt x)

/-- Logarithmic unit of error: one rounding or one library call changes a number by a factor between `exp (-e)` and `exp e`. -/
def e (A : Fmt) : ℝ := -Real.log (1 - A.v)

end Fmt

/-- `y` is `x` up to a factor between `exp (-a)` and `exp a`. -/
def LogNear (a x y : ℝ) : Prop := ∃ s, |s| ≤ a ∧ y = x * Real.exp s

/-! ### Calculus of relative errors -/

theorem LogNear.refl (x : ℝ) : LogNear 0 x x := ⟨0, by simp, by simp⟩

theorem LogNear.mono {a b x y : ℝ} (h : LogNear a x y) (hab : a ≤ b) : LogNear b x y :=
  let ⟨s, h1, h2⟩ := h
  ⟨s, h1.trans hab, h2⟩

theorem LogNear.nonneg {a x y : ℝ} (h : LogNear a x y) : 0 ≤ a :=
  let ⟨_, h1, _⟩ := h
  (abs_nonneg _).trans h1

theorem LogNear.trans {a b x y z : ℝ} (h : LogNear a x y) (h' : LogNear b y z) : LogNear (a + b) x z := by
  obtain ⟨s, h1, rfl⟩ := h
  obtain ⟨t, h2, rfl⟩ := h'
  exact ⟨s + t, (abs_add_le _ _).trans (add_le_add h1 h2), by rw [Real.exp_add]; ring⟩

theorem LogNear.symm {a x y : ℝ} (h : LogNear a x y) : LogNear a y x := by
  obtain ⟨s, h1, rfl⟩ := h
  exact ⟨-s, by rwa [abs_neg], by rw [mul_assoc, ← Real.exp_add]; simp⟩

theorem LogNear.mul {a b x y x' y' : ℝ} (h : LogNear a x x') (h' : LogNear b y y') : LogNear (a + b) (x * y) (x' * y') := by
  obtain ⟨s, h1, rfl⟩ := h
  obtain ⟨t, h2, rfl⟩ := h'
  exact ⟨s + t, (abs_add_le _ _).trans (add_le_add h1 h2), by rw [Real.exp_add]; ring⟩

theorem LogNear.inv {a x y : ℝ} (h : LogNear a x y) : LogNear a x⁻¹ y⁻¹ := by
  obtain ⟨s, h1, rfl⟩ := h
  exact ⟨-s, by rwa [abs_neg], by rw [mul_inv, Real.exp_neg]⟩

theorem LogNear.div {a b x y x' y' : ℝ} (h : LogNear a x x') (h' : LogNear b y y') : LogNear (a + b) (x / y) (x' / y') := by
  simp only [div_eq_mul_inv]
  exact h.mul h'.inv

theorem LogNear.neg {a x y : ℝ} (h : LogNear a x y) : LogNear a (-x) (-y) := by
  obtain ⟨s, h1, rfl⟩ := h
  exact ⟨s, h1, by ring⟩

theorem LogNear.pos {a x y : ℝ} (h : LogNear a x y) (hx : 0 < x) : 0 < y := by
  obtain ⟨s, _, rfl⟩ := h
  positivity

theorem LogNear.nonneg_right {a x y : ℝ} (h : LogNear a x y) (hx : 0 ≤ x) : 0 ≤ y := by
  obtain ⟨s, _, rfl⟩ := h
  positivity

theorem LogNear.bounds {a x y : ℝ} (h : LogNear a x y) (hx : 0 ≤ x) : x * Real.exp (-a) ≤ y ∧ y ≤ x * Real.exp a := by
  obtain ⟨s, h1, rfl⟩ := h
  rw [abs_le] at h1
  exact ⟨mul_le_mul_of_nonneg_left (Real.exp_le_exp.2 h1.1) hx, mul_le_mul_of_nonneg_left (Real.exp_le_exp.2 h1.2) hx⟩

/-- Positive numbers between the two multiples. -/
theorem LogNear.of_bounds {a x y : ℝ} (hx : 0 ≤ x) (ha : 0 ≤ a) (h1 : x * Real.exp (-a) ≤ y) (h2 : y ≤ x * Real.exp a) :
    LogNear a x y := by
  rcases hx.eq_or_lt with rfl | hx
  · exact ⟨0, by simpa using ha, by linarith⟩
  · have hy : 0 < y := lt_of_lt_of_le (by positivity) h1
    refine ⟨Real.log (y / x), ?_, ?_⟩
    · rw [abs_le]
      constructor
      · rw [Real.le_log_iff_exp_le (by positivity), le_div_iff₀ hx]; linarith
      · rw [Real.log_le_iff_le_exp (by positivity), div_le_iff₀ hx]; linarith
    · rw [Real.exp_log (by positivity)]; field_simp

theorem LogNear.sub_le {a x y : ℝ} (h : LogNear a x y) : |y - x| ≤ |x| * (Real.exp a - 1) := by
  obtain ⟨s, h1, rfl⟩ := h
  have e : x * Real.exp s - x = x * (Real.exp s - 1) := by ring
  rw [e, abs_mul]
  refine mul_le_mul_of_nonneg_left ?_ (abs_nonneg _)
  rw [abs_le] at h1 ⊢
  have c1 : Real.exp s ≤ Real.exp a := Real.exp_le_exp.2 h1.2
  have c2 : Real.exp (-a) ≤ Real.exp s := Real.exp_le_exp.2 h1.1
  have c3 := Real.add_one_le_exp a
  have c4 := Real.add_one_le_exp (-a)
  have c5 : 2 ≤ Real.exp a + Real.exp (-a) := by linarith
  exact ⟨by linarith, by linarith⟩

theorem LogNear.sqrt {a x y : ℝ} (h : LogNear a x y) : LogNear (a / 2) (Real.sqrt x) (Real.sqrt y) := by
  obtain ⟨s, h1, rfl⟩ := h
  refine ⟨s / 2, by rw [abs_div, abs_two]; linarith, ?_⟩
  rw [Real.sqrt_mul' _ (Real.exp_pos _).le, Real.sqrt_eq_rpow (Real.exp s), ← Real.exp_mul]
  congr 2; ring

theorem LogNear.rpow {a x y : ℝ} (h : LogNear a x y) (hx : 0 < x) (p : ℝ) : LogNear (|p| * a) (x ^ p) (y ^ p) := by
  obtain ⟨s, h1, rfl⟩ := h
  refine ⟨s * p, by rw [abs_mul, mul_comm]; exact mul_le_mul_of_nonneg_left h1 (abs_nonneg _), ?_⟩
  rw [Real.mul_rpow hx.le (Real.exp_pos _).le, ← Real.exp_mul]

theorem LogNear.exponent {x : ℝ} (hx : 0 < x) (p q : ℝ) : LogNear (|q - p| * |Real.log x|) (x ^ p) (x ^ q) := by
  refine ⟨(q - p) * Real.log x, (abs_mul _ _).le, ?_⟩
  rw [Real.rpow_def_of_pos hx, Real.rpow_def_of_pos hx, ← Real.exp_add]
  congr 1; ring

theorem LogNear.add {a x y x' y' : ℝ} (h : LogNear a x x') (h' : LogNear a y y') (hx : 0 ≤ x) (hy : 0 ≤ y) :
    LogNear a (x + y) (x' + y') := by
  have b := h.bounds hx
  have b' := h'.bounds hy
  exact LogNear.of_bounds (by positivity) h.nonneg (by rw [add_mul]; linarith) (by rw [add_mul]; linarith)

theorem LogNear.max {a x y x' y' : ℝ} (h : LogNear a x x') (h' : LogNear a y y') (hx : 0 ≤ x) (hy : 0 ≤ y) :
    LogNear a (max x y) (max x' y') := by
  have b := h.bounds hx
  have b' := h'.bounds hy
  refine LogNear.of_bounds (hx.trans (le_max_left _ _)) h.nonneg ?_ ?_
  · rw [max_mul_of_nonneg _ _ (Real.exp_pos _).le]
    exact max_le_max b.1 b'.1
  · rw [max_mul_of_nonneg _ _ (Real.exp_pos _).le]
    exact max_le_max b.2 b'.2

theorem LogNear.abs_log {a x y : ℝ} (h : LogNear a x y) (hx : 0 < x) : |Real.log y - Real.log x| ≤ a := by
  obtain ⟨s, h1, rfl⟩ := h
  rw [Real.log_mul hx.ne' (Real.exp_pos _).ne', Real.log_exp]
  simpa using h1

/-- A number within a relative distance `q < 1`. -/
theorem LogNear.of_rel {q x y : ℝ} (h0 : 0 ≤ q) (hq : q < 1) (h : |y - x| ≤ q * |x|) : LogNear (-Real.log (1 - q)) x y := by
  have hp : 0 < 1 - q := by linarith
  rcases eq_or_ne x 0 with rfl | hx
  · have hy : y = 0 := by simpa using h
    rw [hy]
    exact ⟨0, by rw [abs_zero]; linarith [Real.log_nonpos hp.le (by linarith)], by simp⟩
  · have ht : |y / x - 1| ≤ q := by
      rw [show y / x - 1 = (y - x) / x by field_simp, abs_div, div_le_iff₀ (abs_pos.2 hx)]
      exact h
    rw [abs_le] at ht
    have htp : 0 < y / x := by linarith
    refine ⟨Real.log (y / x), ?_, by rw [Real.exp_log htp]; field_simp⟩
    rw [abs_le]
    constructor
    · rw [neg_neg]; exact Real.log_le_log hp (by linarith)
    · rw [← Real.log_inv]
      refine Real.log_le_log htp ?_
      rw [le_inv_comm₀ htp hp] 
      have h1 : 0 < (y / x)⁻¹ := inv_pos.2 htp
      nlinarith [mul_inv_cancel₀ htp.ne', sq_nonneg q]

namespace Fmt
variable (A : Fmt)

theorem v0 : 0 ≤ A.v := A.u0.trans A.uv

theorem e_nonneg : 0 ≤ A.e := by
  have := A.v0
  have := A.v1
  exact neg_nonneg.2 (Real.log_nonpos (by linarith) (by linarith))

theorem u_le_e : A.u ≤ A.e := by
  have h := Real.log_le_sub_one_of_pos (x := 1 - A.v) (by linarith [A.v1])
  unfold Fmt.e
  linarith [A.uv]

/-- The unit for small `v`. -/
theorem e_le : A.e ≤ A.v / (1 - A.v) := by
  have hp : 0 < 1 - A.v := by linarith [A.v1]
  have h := Real.log_le_sub_one_of_pos (inv_pos.2 hp)
  rw [Real.log_inv] at h
  unfold Fmt.e
  refine h.trans (le_of_eq ?_)
  field_simp
  ring

theorem rnd_near (x : ℝ) : LogNear A.e x (A.rnd x) :=
  LogNear.of_rel A.v0 A.v1 ((A.err x).trans (mul_le_mul_of_nonneg_right A.uv (abs_nonneg _)))

theorem exp_near (x : ℝ) : LogNear A.e (Real.exp x) (A.expF x) :=
  LogNear.of_rel A.v0 A.v1 (by rw [abs_of_pos (Real.exp_pos x)]; exact A.exp_err x)

theorem log_near (x : ℝ) : LogNear A.e (Real.log x) (A.logF x) := LogNear.of_rel A.v0 A.v1 (A.log_err x)

theorem pow_near {x : ℝ} (hx : 0 < x) (y : ℝ) : LogNear A.e (x ^ y) (A.powF x y) :=
  LogNear.of_rel A.v0 A.v1 (by rw [abs_of_pos (Real.rpow_pos_of_pos hx y)]; exact A.pow_err x y hx)

theorem mul_near {a b x y x' y' : ℝ} (h : LogNear a x x') (h' : LogNear b y y') : LogNear (a + b + A.e) (x * y) (A.mul x' y') :=
  (h.mul h').trans (A.rnd_near _)

theorem div_near {a b x y x' y' : ℝ} (h : LogNear a x x') (h' : LogNear b y y') : LogNear (a + b + A.e) (x / y) (A.div x' y') :=
  (h.div h').trans (A.rnd_near _)

theorem add_near {a x y x' y' : ℝ} (h : LogNear a x x') (h' : LogNear a y y') (hx : 0 ≤ x) (hy : 0 ≤ y) :
    LogNear (a + A.e) (x + y) (A.add x' y') :=
  (h.add h' hx hy).trans (A.rnd_near _)

theorem sq_near {a x x' : ℝ} (h : LogNear a x x') : LogNear (2 * a + A.e) (x * x) (A.sq x') := by
  rw [two_mul]
  exact (h.mul h).trans (A.rnd_near _)

theorem sqrt_near {a x x' : ℝ} (h : LogNear a x x') : LogNear (a / 2 + A.e) (Real.sqrt x) (A.sqrt x') :=
  h.sqrt.trans (A.rnd_near _)

/-- A power whose exponent `p` is a literal, itself rounded to the format. -/
theorem powLit_near {a x x' R : ℝ} (h : LogNear a x x') (hx : 0 < x) (hR : |Real.log x| ≤ R) (p : ℝ) :
    LogNear (|p| * (a + A.e * (R + a)) + A.e) (x ^ p) (A.powF x' (A.rnd p)) := by
  have hx' := h.pos hx
  have h1 := h.rpow hx p
  have h2 := LogNear.exponent hx' p (A.rnd p)
  have h3 := A.pow_near hx' (A.rnd p)
  refine ((h1.trans h2).trans h3).mono ?_
  have c1 : |A.rnd p - p| ≤ A.e * |p| := (A.err p).trans (mul_le_mul_of_nonneg_right A.u_le_e (abs_nonneg _))
  have c2 : |Real.log x'| ≤ R + a := by
    have := h.abs_log hx
    rw [abs_le] at this hR ⊢
    constructor <;> linarith [this.1, this.2, hR.1, hR.2]
  have c3 : |A.rnd p - p| * |Real.log x'| ≤ A.e * |p| * (R + a) :=
    mul_le_mul c1 c2 (abs_nonneg _) (mul_nonneg A.e_nonneg (abs_nonneg _))
  nlinarith

/-- A power with a given exponent. -/
theorem powGiven_near {a x x' : ℝ} (h : LogNear a x x') (hx : 0 < x) (p : ℝ) : LogNear (|p| * a + A.e) (x ^ p) (A.powF x' p) :=
  (h.rpow hx p).trans (A.pow_near (h.pos hx) p)

variable {A}

/-! ### Sums in any order -/

/-- `Summation A l s d`: `s` may come out when the numbers in `l` are added in some order with parentheses nested at most `d`
deep (torch and numpy add in blocks and pairs; zeros as starting values are allowed). -/
inductive Summation (A : Fmt) : List ℝ → ℝ → ℕ → Prop
  | zero : Summation A [] 0 0
  | one (x : ℝ) : Summation A [x] x 0
  | add {l l1 l2 : List ℝ} {s1 s2 : ℝ} {d d1 d2 : ℕ} (h1 : Summation A l1 s1 d1) (h2 : Summation A l2 s2 d2)
      (p : l.Perm (l1 ++ l2)) (b1 : d1 < d) (b2 : d2 < d) : Summation A l (A.add s1 s2) d

theorem Summation.near {l : List ℝ} {s : ℝ} {d : ℕ} (h : Summation A l s d) (h0 : ∀ x ∈ l, 0 ≤ x) :
    LogNear (d * A.e) l.sum s := by
  induction h with
  | zero => simpa using LogNear.refl 0
  | one x => simpa using LogNear.refl x
  | @add l l1 l2 s1 s2 d d1 d2 _ _ p b1 b2 i1 i2 =>
    have m1 : ∀ x ∈ l1, 0 ≤ x := fun x hx => h0 x (p.mem_iff.2 (List.mem_append_left _ hx))
    have m2 : ∀ x ∈ l2, 0 ≤ x := fun x hx => h0 x (p.mem_iff.2 (List.mem_append_right _ hx))
    have n1 : 0 ≤ l1.sum := List.sum_nonneg m1
    have n2 : 0 ≤ l2.sum := List.sum_nonneg m2
    rw [p.sum_eq, List.sum_append]
    have e0 := A.e_nonneg
    obtain ⟨c, rfl⟩ : ∃ c, d = c + 1 := ⟨d - 1, by omega⟩
    have k1 : (d1 : ℝ) ≤ c := by exact_mod_cast Nat.lt_succ_iff.1 b1
    have k2 : (d2 : ℝ) ≤ c := by exact_mod_cast Nat.lt_succ_iff.1 b2
    have := A.add_near ((i1 m1).mono (mul_le_mul_of_nonneg_right k1 e0)) ((i2 m2).mono (mul_le_mul_of_nonneg_right k2 e0)) n1 n2
    refine this.mono (le_of_eq ?_)
    push_cast; ring

/-- Adding from the left is one of the orders, for instance. -/
theorem Summation.foldl (l : List ℝ) : ∃ s, Summation A l s l.length := by
  induction l with
  | nil => exact ⟨0, .zero⟩
  | cons x t ih =>
    obtain ⟨s, h⟩ := ih
    exact ⟨_, Summation.add (d := t.length + 1) (.one x) h (by simp) (by omega) (by omega)⟩

/-! ### Instances -/

/-- Exact arithmetic. -/
def exact : Fmt where
  rnd := id
  u := 0
  v := 0
  expF := Real.exp
  logF := Real.log
  powF := fun x y => x ^ y
  u0 := le_rfl
  uv := le_rfl
  v1 := one_pos
  err := by simp
  odd := by simp
  exp_err := by simp
  log_err := by simp
  pow_err := by simp

/-- Distance of neighbouring numbers with `p` binary digits around `x`. -/
def ulp (p : ℕ) (x : ℝ) : ℝ := (2:ℝ) ^ (Int.log 2 |x| + 1 - p)

/-- Rounding to the nearest number with `p` binary digits (ties away from zero). -/
def nearest (p : ℕ) (x : ℝ) : ℝ := SignType.sign x * (round (|x| / ulp p x) * ulp p x)

theorem nearest_err (p : ℕ) (x : ℝ) : |nearest p x - x| ≤ (1 / 2) ^ p * |x| := by
  rcases eq_or_ne x 0 with rfl | hx
  · simp [nearest]
  have hu : 0 < ulp p x := by unfold ulp; positivity
  have hx' : 0 < |x| := abs_pos.2 hx
  have hl : ulp p x ≤ 2 * ((1 / 2) ^ p * |x|) := by
    have h := Int.zpow_log_le_self (b := 2) (r := |x|) (by norm_num) hx'
    unfold ulp
    rw [zpow_sub₀ (by norm_num), zpow_add₀ (by norm_num), zpow_natCast, zpow_one]
    push_cast at h
    rw [div_eq_mul_inv, one_div, inv_pow]
    have : 0 < ((2:ℝ) ^ p)⁻¹ := by positivity
    nlinarith
  have hr := abs_sub_round (|x| / ulp p x)
  have h1 : abs ((round (|x| / ulp p x) * ulp p x : ℝ) - |x|) ≤ 1 / 2 * ulp p x := by
    have e : (round (|x| / ulp p x) * ulp p x : ℝ) - |x| = -((|x| / ulp p x - round (|x| / ulp p x)) * ulp p x) := by
      field_simp; ring
    rw [e, abs_neg, abs_mul, abs_of_pos hu]
    exact mul_le_mul_of_nonneg_right hr hu.le
  have e : nearest p x - x = SignType.sign x * ((round (|x| / ulp p x) * ulp p x : ℝ) - |x|) := by
    unfold nearest
    rw [mul_sub, sign_mul_abs]
  have hs : |((SignType.sign x : SignType) : ℝ)| = 1 := by
    rcases lt_or_gt_of_ne hx with h | h
    · simp [sign_neg h]
    · simp [sign_pos h]
  rw [e, abs_mul, hs, one_mul]
  linarith

/-- Binary floating point with `p` digits and correctly rounded library functions; single precision has `p = 24`, double
precision `p = 53`. -/
def binary (p : ℕ) (hp : 0 < p) : Fmt where
  rnd := nearest p
  u := (1 / 2) ^ p
  v := (1 / 2) ^ p
  expF := fun x => nearest p (Real.exp x)
  logF := fun x => nearest p (Real.log x)
  powF := fun x y => nearest p (x ^ y)
  u0 := by positivity
  uv := le_rfl
  v1 := pow_lt_one₀ (by norm_num) (by norm_num) hp.ne'
  err := nearest_err p
  odd := by intro x; simp [nearest, ulp, Left.sign_neg]
  exp_err := fun x => by have := nearest_err p (Real.exp x); rwa [abs_of_pos (Real.exp_pos x)] at this
  log_err := fun x => nearest_err p _
  pow_err := fun x y hx => by have := nearest_err p (x ^ y); rwa [abs_of_pos (Real.rpow_pos_of_pos hx y)] at this

/-- The format rounds: with one digit three becomes four. -/
example : (binary 1 (by norm_num)).rnd 3 = 4 := by
  have h : Int.log 2 |(3:ℝ)| = 1 := by
    rw [abs_of_pos (by norm_num), show (3:ℝ) = ((3:ℕ):ℝ) by norm_num, Int.log_natCast]
    rfl
  have hr : round ((3:ℝ) / 2) = 2 := by
    rw [round_eq, show (3:ℝ) / 2 + 1 / 2 = 2 by norm_num]; exact Int.floor_intCast 2
  change nearest 1 3 = 4
  simp only [nearest, ulp, h]
  norm_num [hr]

end Fmt
end
end Verif
