import Mathlib.Analysis.SpecialFunctions.Pow.Real
import Mathlib.Analysis.SpecialFunctions.Complex.Arg
import Mathlib.Algebra.BigOperators.Group.Finset.Basic

/-!
# `Fl`: idealised floating-point numbers

Finite values are exact reals (no rounding, no overflow); the three special values follow IEEE-754
as implemented by numpy and torch.  Zero is unsigned (it behaves as `+0`): `x / 0` is `±inf` with the
sign of `x`, `0 / 0` is NaN.
-/

namespace Verif

/-- Idealised floating point number: NaN, `+inf`, `-inf` or an exact real. -/
inductive Fl where
  | nan : Fl
  | pinf : Fl
  | ninf : Fl
  | fin (x : ℝ) : Fl

namespace Fl

noncomputable section
open Classical

/-- The finite value, `0` for the special values (only used together with `IsFin`). -/
def toReal : Fl → ℝ
  | fin x => x
  | _ => 0

/-- `np.isfinite`. -/
def IsFin : Fl → Prop
  | fin _ => True
  | _ => False

/-- `np.isnan`. -/
def IsNan : Fl → Prop
  | nan => True
  | _ => False

@[simp] theorem toReal_fin (x : ℝ) : (fin x).toReal = x := rfl
@[simp] theorem isFin_fin (x : ℝ) : (fin x).IsFin := trivial
@[simp] theorem not_isFin_nan : ¬ (nan).IsFin := id
@[simp] theorem not_isFin_pinf : ¬ (pinf).IsFin := id
@[simp] theorem not_isFin_ninf : ¬ (ninf).IsFin := id
@[simp] theorem isNan_nan : (nan).IsNan := trivial
@[simp] theorem not_isNan_fin (x : ℝ) : ¬ (fin x).IsNan := id
@[simp] theorem not_isNan_pinf : ¬ (pinf).IsNan := id
@[simp] theorem not_isNan_ninf : ¬ (ninf).IsNan := id

theorem isNan_iff {x : Fl} : x.IsNan ↔ x = nan := by cases x <;> simp

theorem isFin_iff {x : Fl} : x.IsFin ↔ ∃ r, x = fin r := by cases x <;> simp

theorem IsFin.eq {x : Fl} (h : x.IsFin) : x = fin x.toReal := by cases x <;> simp_all

instance : Zero Fl := ⟨fin 0⟩
instance : One Fl := ⟨fin 1⟩
theorem zero_def : (0 : Fl) = fin 0 := rfl
theorem one_def : (1 : Fl) = fin 1 := rfl
@[simp] theorem toReal_zero : (0 : Fl).toReal = 0 := rfl

theorem fin_inj {x y : ℝ} : fin x = fin y ↔ x = y := ⟨fun h => by injection h, fun h => by rw [h]⟩

/-- Negation. -/
protected def neg : Fl → Fl
  | nan => nan
  | pinf => ninf
  | ninf => pinf
  | fin x => fin (-x)

/-- Addition. -/
protected def add : Fl → Fl → Fl
  | fin x, fin y => fin (x + y)
  | nan, _ => nan
  | _, nan => nan
  | pinf, ninf => nan
  | ninf, pinf => nan
  | pinf, _ => pinf
  | _, pinf => pinf
  | ninf, _ => ninf
  | _, ninf => ninf

/-- Sign multiplication of an infinity with a real: `inf * x`. -/
def infMul (x : ℝ) : Fl := if x = 0 then nan else if 0 < x then pinf else ninf

/-- Multiplication. -/
protected def mul : Fl → Fl → Fl
  | fin x, fin y => fin (x * y)
  | nan, _ => nan
  | _, nan => nan
  | pinf, pinf => pinf
  | pinf, ninf => ninf
  | ninf, pinf => ninf
  | ninf, ninf => pinf
  | pinf, fin x => infMul x
  | fin x, pinf => infMul x
  | ninf, fin x => infMul (-x)
  | fin x, ninf => infMul (-x)

/-- Division; `x / 0` has the sign of `x` (zero is `+0`), `0 / 0` is NaN. -/
protected def div : Fl → Fl → Fl
  | fin x, fin y => if y = 0 then infMul x else fin (x / y)
  | nan, _ => nan
  | _, nan => nan
  | fin _, pinf => fin 0
  | fin _, ninf => fin 0
  | pinf, fin y => if 0 ≤ y then pinf else ninf
  | ninf, fin y => if 0 ≤ y then ninf else pinf
  | pinf, _ => nan
  | ninf, _ => nan

instance : Neg Fl := ⟨Fl.neg⟩
instance : Add Fl := ⟨Fl.add⟩
instance : Sub Fl := ⟨fun a b => a + -b⟩
instance : Mul Fl := ⟨Fl.mul⟩
instance : Div Fl := ⟨Fl.div⟩
/-- Multiplication by a finite number. -/
instance : SMul ℝ Fl := ⟨fun r x => fin r * x⟩

theorem sub_def (a b : Fl) : a - b = a + -b := rfl
theorem smul_def (r : ℝ) (x : Fl) : r • x = fin r * x := rfl

@[simp] theorem neg_fin (x : ℝ) : -(fin x) = fin (-x) := rfl
@[simp] theorem neg_nan : -(nan) = nan := rfl
@[simp] theorem neg_pinf : -(pinf) = ninf := rfl
@[simp] theorem neg_ninf : -(ninf) = pinf := rfl
@[simp] theorem fin_add_fin (x y : ℝ) : fin x + fin y = fin (x + y) := rfl
@[simp] theorem fin_sub_fin (x y : ℝ) : fin x - fin y = fin (x - y) := by
  rw [sub_def, neg_fin, fin_add_fin, sub_eq_add_neg]
@[simp] theorem fin_mul_fin (x y : ℝ) : fin x * fin y = fin (x * y) := rfl
theorem fin_div_fin {y : ℝ} (x : ℝ) (h : y ≠ 0) : fin x / fin y = fin (x / y) := if_neg h
theorem fin_div_zero (x : ℝ) : fin x / fin 0 = infMul x := if_pos rfl
@[simp] theorem smul_fin (r x : ℝ) : r • fin x = fin (r * x) := rfl

@[simp] theorem nan_add (x : Fl) : nan + x = nan := by cases x <;> rfl
@[simp] theorem add_nan (x : Fl) : x + nan = nan := by cases x <;> rfl
@[simp] theorem nan_sub (x : Fl) : nan - x = nan := by rw [sub_def, nan_add]
@[simp] theorem sub_nan (x : Fl) : x - nan = nan := by rw [sub_def, neg_nan, add_nan]
@[simp] theorem nan_mul (x : Fl) : nan * x = nan := by cases x <;> rfl
@[simp] theorem mul_nan (x : Fl) : x * nan = nan := by cases x <;> rfl
@[simp] theorem nan_div (x : Fl) : nan / x = nan := by cases x <;> rfl
@[simp] theorem div_nan (x : Fl) : x / nan = nan := by cases x <;> rfl
@[simp] theorem pinf_add_fin (x : ℝ) : pinf + fin x = pinf := rfl
@[simp] theorem fin_add_pinf (x : ℝ) : fin x + pinf = pinf := rfl
@[simp] theorem ninf_add_fin (x : ℝ) : ninf + fin x = ninf := rfl
@[simp] theorem fin_add_ninf (x : ℝ) : fin x + ninf = ninf := rfl
@[simp] theorem pinf_add_pinf : pinf + pinf = pinf := rfl
@[simp] theorem ninf_add_ninf : ninf + ninf = ninf := rfl
@[simp] theorem pinf_add_ninf : pinf + ninf = nan := rfl
@[simp] theorem ninf_add_pinf : ninf + pinf = nan := rfl
@[simp] theorem pinf_mul_pinf : pinf * pinf = pinf := rfl
@[simp] theorem ninf_mul_ninf : ninf * ninf = pinf := rfl
@[simp] theorem pinf_mul_ninf : pinf * ninf = ninf := rfl
@[simp] theorem ninf_mul_pinf : ninf * pinf = ninf := rfl
@[simp] theorem infMul_zero : infMul 0 = nan := if_pos rfl
theorem infMul_pos {x : ℝ} (h : 0 < x) : infMul x = pinf := by
  rw [infMul, if_neg h.ne', if_pos h]
theorem infMul_neg {x : ℝ} (h : x < 0) : infMul x = ninf := by
  rw [infMul, if_neg h.ne, if_neg h.not_gt]
theorem pinf_mul_fin (x : ℝ) : pinf * fin x = infMul x := rfl
theorem fin_mul_pinf (x : ℝ) : fin x * pinf = infMul x := rfl
theorem ninf_mul_fin (x : ℝ) : ninf * fin x = infMul (-x) := rfl
theorem fin_mul_ninf (x : ℝ) : fin x * ninf = infMul (-x) := rfl
theorem pinf_div_fin_pos {x : ℝ} (h : 0 ≤ x) : pinf / fin x = pinf := if_pos h
theorem ninf_div_fin_pos {x : ℝ} (h : 0 ≤ x) : ninf / fin x = ninf := if_pos h
@[simp] theorem smul_nan (r : ℝ) : r • nan = nan := rfl

/-- Addition of idealised floats is commutative and associative (finite values are exact). -/
instance : AddCommMonoid Fl where
  add_assoc a b c := by
    cases a <;> cases b <;> cases c <;> simp [add_assoc]
  zero_add a := by cases a <;> simp [zero_def]
  add_zero a := by cases a <;> simp [zero_def]
  add_comm a b := by cases a <;> cases b <;> simp [add_comm]
  nsmul := nsmulRec

protected theorem mul_comm (a b : Fl) : a * b = b * a := by
  cases a <;> cases b <;> simp [mul_comm, pinf_mul_fin, fin_mul_pinf, ninf_mul_fin, fin_mul_ninf]

/-- `abs`. -/
def abs : Fl → Fl
  | nan => nan
  | pinf => pinf
  | ninf => pinf
  | fin x => fin |x|

/-- `np.sqrt` / `torch.sqrt`: NaN on negative numbers. -/
def sqrt : Fl → Fl
  | nan => nan
  | pinf => pinf
  | ninf => nan
  | fin x => if x < 0 then nan else fin (Real.sqrt x)

/-- `log`: NaN on negatives, `-inf` at zero. -/
def log : Fl → Fl
  | nan => nan
  | pinf => pinf
  | ninf => nan
  | fin x => if x < 0 then nan else if x = 0 then ninf else fin (Real.log x)

/-- `exp`. -/
def exp : Fl → Fl
  | nan => nan
  | pinf => pinf
  | ninf => fin 0
  | fin x => fin (Real.exp x)

/-- `x ** a` for a finite real exponent: `0**a` is `inf`, `1`, `0` for `a <, =, > 0`; a negative base with
a non-integer exponent gives NaN. -/
def pow (x : Fl) (a : ℝ) : Fl :=
  if a = 0 then fin 1 else
  match x with
  | nan => nan
  | pinf => if 0 < a then pinf else fin 0
  | ninf => if ∃ n : ℤ, a = n then (if 0 < a then (if ∃ n : ℤ, a = 2 * n then pinf else ninf) else fin 0)
            else (if 0 < a then pinf else fin 0)
  | fin x =>
    if x = 0 then (if 0 < a then fin 0 else pinf)
    else if 0 < x then fin (x ^ a)
    else if ∃ n : ℤ, a = n then fin (x ^ a) else nan

/-- `atan2(y, x)` on finite arguments is the argument of `x + i y` (`atan2(0,0) = 0`); on NaN it is NaN;
infinite arguments follow IEEE (here: simplified to NaN, never used by a theorem). -/
def atan2 : Fl → Fl → Fl
  | fin y, fin x => fin (Complex.arg ⟨x, y⟩)
  | _, _ => nan

/-- `<` : false when an operand is NaN. -/
def lt : Fl → Fl → Prop
  | fin x, fin y => x < y
  | ninf, pinf => True
  | ninf, fin _ => True
  | fin _, pinf => True
  | _, _ => False

/-- `==` : false when an operand is NaN. -/
def eqb : Fl → Fl → Prop
  | fin x, fin y => x = y
  | pinf, pinf => True
  | ninf, ninf => True
  | _, _ => False

/-- The largest finite double, `(2 - 2^-52) * 2^1023`. -/
def big : ℝ := (2 - (2 : ℝ) ^ (-52 : ℤ)) * (2 : ℝ) ^ (1023 : ℕ)

/-- `np.nan_to_num`: NaN to 0, `±inf` to `±big`. -/
def nanToNum : Fl → ℝ
  | nan => 0
  | pinf => big
  | ninf => -big
  | fin x => x

/-- `torch.sign` (NaN stays NaN). -/
def sign : Fl → Fl
  | nan => nan
  | pinf => fin 1
  | ninf => fin (-1)
  | fin x => if 0 < x then fin 1 else if x < 0 then fin (-1) else fin 0

/-- `relu(x)`: `max(x,0)`, NaN stays NaN (torch semantics). -/
def relu : Fl → Fl
  | nan => nan
  | pinf => pinf
  | ninf => fin 0
  | fin x => fin (max x 0)

@[simp] theorem abs_fin (x : ℝ) : abs (fin x) = fin |x| := rfl
theorem sqrt_fin {x : ℝ} (h : 0 ≤ x) : sqrt (fin x) = fin (Real.sqrt x) := if_neg h.not_gt
theorem log_fin {x : ℝ} (h : 0 < x) : log (fin x) = fin (Real.log x) := by
  rw [log, if_neg h.not_gt, if_neg h.ne']
@[simp] theorem log_zero : log (fin 0) = ninf := by simp [log]
@[simp] theorem exp_fin (x : ℝ) : exp (fin x) = fin (Real.exp x) := rfl
theorem pow_fin {x : ℝ} (a : ℝ) (h : 0 < x) : pow (fin x) a = fin (x ^ a) := by
  unfold pow
  by_cases ha : a = 0
  · simp [ha]
  · simp [ha, h.ne', h]
theorem pow_fin_zero_pos {a : ℝ} (h : 0 < a) : pow (fin 0) a = fin 0 := by
  simp [pow, h.ne', h]
theorem pow_fin_zero_neg {a : ℝ} (h : a < 0) : pow (fin 0) a = pinf := by
  simp [pow, h.ne, h.not_gt]
theorem pow_fin_zero_zero : pow (fin 0) 0 = fin 1 := by simp [pow]
theorem pow_nonneg_fin {x a : ℝ} (hx : 0 ≤ x) (ha : 0 < a) : pow (fin x) a = fin (x ^ a) := by
  rcases hx.eq_or_lt with h | h
  · rw [← h, pow_fin_zero_pos ha, Real.zero_rpow ha.ne']
  · exact pow_fin a h
@[simp] theorem atan2_fin (y x : ℝ) : atan2 (fin y) (fin x) = fin (Complex.arg ⟨x, y⟩) := rfl
@[simp] theorem lt_fin (x y : ℝ) : lt (fin x) (fin y) ↔ x < y := Iff.rfl
@[simp] theorem not_nan_lt (y : Fl) : ¬ lt nan y := by cases y <;> exact id
@[simp] theorem not_lt_nan (y : Fl) : ¬ lt y nan := by cases y <;> exact id
@[simp] theorem nanToNum_fin (x : ℝ) : nanToNum (fin x) = x := rfl
@[simp] theorem nanToNum_nan : nanToNum nan = 0 := rfl
@[simp] theorem relu_fin (x : ℝ) : relu (fin x) = fin (max x 0) := rfl

/-- Sum of a list (left to right; order is irrelevant because addition is exact). -/
theorem sum_map_fin {ι : Type*} (l : List ι) (f : ι → ℝ) :
    (l.map fun i => fin (f i)).sum = fin (l.map f).sum := by
  induction l with
  | nil => rfl
  | cons a l ih => simp [ih]

theorem finset_sum_fin {ι : Type*} (s : Finset ι) (f : ι → ℝ) :
    ∑ i ∈ s, fin (f i) = fin (∑ i ∈ s, f i) := by
  classical
  induction s using Finset.induction_on with
  | empty => rfl
  | insert a s ha ih => rw [Finset.sum_insert ha, ih, Finset.sum_insert ha, fin_add_fin]

end

end Fl
end Verif
