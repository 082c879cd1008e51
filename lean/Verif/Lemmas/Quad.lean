import Verif.Model.OnePointState
import Mathlib.Algebra.Module.Basic
import Mathlib.Analysis.Complex.Norm
import Mathlib.Analysis.SpecialFunctions.Trigonometric.Basic
import Mathlib.Tactic.Linarith
import Mathlib.Tactic.Module

/-! Trapezoid quadrature lemmas. -/

namespace Verif
open Fl

noncomputable section

section generic
variable {M : Type*} [Add M] [Zero M] [SMul ℝ M]

theorem trapz_nil (f : ℝ → M) : trapz [] (([] : List ℝ).map f) = 0 := rfl
theorem trapz_one (f : ℝ → M) (x : ℝ) : trapz [x] ([x].map f) = 0 := rfl
theorem trapz_cons2 (f : ℝ → M) (x y : ℝ) (l : List ℝ) :
    trapz (x :: y :: l) ((x :: y :: l).map f) = ((y - x) / 2) • (f x + f y) + trapz (y :: l) ((y :: l).map f) := rfl

end generic

/-- Transfer of a trapezoid sum through a homomorphism. -/
theorem trapz_map {M N : Type*} [Add M] [Zero M] [SMul ℝ M] [Add N] [Zero N] [SMul ℝ N] (φ : M → N)
    (h0 : φ 0 = 0) (hadd : ∀ a b, φ (a + b) = φ a + φ b) (hsmul : ∀ (r : ℝ) a, φ (r • a) = r • φ a)
    (g : List ℝ) (f : ℝ → M) : trapz g (g.map fun x => φ (f x)) = φ (trapz g (g.map f)) := by
  induction g with
  | nil => simp [trapz, h0]
  | cons x l ih =>
    cases l with
    | nil => simp [trapz, h0]
    | cons y l =>
      rw [trapz_cons2, trapz_cons2, hadd, hsmul, hadd, ih]

theorem trapz_congr {M : Type*} [Add M] [Zero M] [SMul ℝ M] {g : List ℝ} {f f' : ℝ → M}
    (h : ∀ x ∈ g, f x = f' x) : trapz g (g.map f) = trapz g (g.map f') := by
  rw [List.map_congr_left h]

theorem quad23_congr {M : Type*} [Add M] [Zero M] [SMul ℝ M] {g2 g3 : List ℝ} {f f' : ℝ → ℝ → M}
    (h : ∀ x ∈ g2, ∀ y ∈ g3, f x y = f' x y) : quad23 g2 g3 f = quad23 g2 g3 f' := by
  unfold quad23
  exact trapz_congr fun x hx => trapz_congr fun y hy => h x hx y hy

theorem quad23_map {M N : Type*} [Add M] [Zero M] [SMul ℝ M] [Add N] [Zero N] [SMul ℝ N] (φ : M → N)
    (h0 : φ 0 = 0) (hadd : ∀ a b, φ (a + b) = φ a + φ b) (hsmul : ∀ (r : ℝ) a, φ (r • a) = r • φ a)
    (g2 g3 : List ℝ) (f : ℝ → ℝ → M) : quad23 g2 g3 (fun x y => φ (f x y)) = φ (quad23 g2 g3 f) := by
  unfold quad23
  rw [← trapz_map φ h0 hadd hsmul]
  exact trapz_congr fun x _ => trapz_map φ h0 hadd hsmul _ _

theorem trapz_fin (g : List ℝ) (f : ℝ → ℝ) : trapz g (g.map fun x => fin (f x)) = fin (trapz g (g.map f)) :=
  trapz_map fin rfl (fun _ _ => rfl) (fun _ _ => rfl) g f

theorem quad23_fin {g2 g3 : List ℝ} {F : ℝ → ℝ → Fl} {f : ℝ → ℝ → ℝ}
    (h : ∀ x ∈ g2, ∀ y ∈ g3, F x y = fin (f x y)) : quad23 g2 g3 F = fin (quad23 g2 g3 f) := by
  rw [quad23_congr h]
  exact quad23_map fin rfl (fun _ _ => rfl) (fun _ _ => rfl) g2 g3 f

/-- A lower bound on the integrand gives a lower bound on the trapezoid sum. -/
theorem trapz_ge {g : List ℝ} (hg : g.Pairwise (· ≤ ·)) {f : ℝ → ℝ} {c : ℝ} (h : ∀ x ∈ g, c ≤ f x) :
    c * (g.getLastD 0 - g.headD 0) ≤ trapz g (g.map f) := by
  induction g with
  | nil => simp [trapz]
  | cons x l ih =>
    cases l with
    | nil => simp [trapz]
    | cons y l =>
      rw [trapz_cons2]
      have hxy : x ≤ y := (List.pairwise_cons.1 hg).1 y (by simp)
      have ih' := ih (List.pairwise_cons.1 hg).2 (fun z hz => h z (by simp [hz]))
      have hx := h x (by simp)
      have hy := h y (by simp)
      have e : (x :: y :: l).getLastD 0 = (y :: l).getLastD 0 := by simp
      rw [e]
      simp only [List.headD_cons, smul_eq_mul] at ih' ⊢
      nlinarith [mul_nonneg (sub_nonneg.2 hxy) (sub_nonneg.2 hx), mul_nonneg (sub_nonneg.2 hxy) (sub_nonneg.2 hy)]

theorem trapz_nonneg {g : List ℝ} (hg : g.Pairwise (· ≤ ·)) {f : ℝ → ℝ} (h : ∀ x ∈ g, 0 ≤ f x) :
    0 ≤ trapz g (g.map f) := by
  have := trapz_ge hg h
  simpa using this

/-- Width of a grid. -/
def gridWidth (g : List ℝ) : ℝ := g.getLastD 0 - g.headD 0

theorem quad23_ge {g2 g3 : List ℝ} (h2 : g2.Pairwise (· ≤ ·)) (h3 : g3.Pairwise (· ≤ ·)) {f : ℝ → ℝ → ℝ} {c : ℝ}
    (h : ∀ x ∈ g2, ∀ y ∈ g3, c ≤ f x y) : c * gridWidth g3 * gridWidth g2 ≤ quad23 g2 g3 f := by
  unfold quad23
  exact trapz_ge h2 fun x hx => trapz_ge h3 fun y hy => h x hx y hy

/-- Triangle inequality. -/
theorem trapz_norm_le {E : Type*} [SeminormedAddCommGroup E] [NormedSpace ℝ E] {g : List ℝ}
    (hg : g.Pairwise (· ≤ ·)) (f : ℝ → E) {b : ℝ → ℝ} (hb : ∀ x ∈ g, ‖f x‖ ≤ b x) :
    ‖trapz g (g.map f)‖ ≤ trapz g (g.map b) := by
  induction g with
  | nil => simp [trapz]
  | cons x l ih =>
    cases l with
    | nil => simp [trapz]
    | cons y l =>
      rw [trapz_cons2, trapz_cons2]
      have hxy : x ≤ y := (List.pairwise_cons.1 hg).1 y (by simp)
      have ih' := ih (List.pairwise_cons.1 hg).2 (fun z hz => hb z (by simp [hz]))
      have hx := hb x (by simp)
      have hy := hb y (by simp)
      refine (norm_add_le _ _).trans (add_le_add ?_ ih')
      have hn : 0 ≤ (y - x) / 2 := by linarith
      rw [norm_smul, Real.norm_of_nonneg hn, smul_eq_mul]
      exact mul_le_mul_of_nonneg_left ((norm_add_le _ _).trans (add_le_add hx hy)) hn

theorem quad23_norm_le {E : Type*} [SeminormedAddCommGroup E] [NormedSpace ℝ E] {g2 g3 : List ℝ}
    (h2 : g2.Pairwise (· ≤ ·)) (h3 : g3.Pairwise (· ≤ ·)) {f : ℝ → ℝ → E} {b : ℝ → ℝ → ℝ}
    (h : ∀ x ∈ g2, ∀ y ∈ g3, ‖f x y‖ ≤ b x y) : ‖quad23 g2 g3 f‖ ≤ quad23 g2 g3 b := by
  unfold quad23
  exact trapz_norm_le h2 _ fun x hx => trapz_norm_le h3 _ fun y hy => h x hx y hy

section sym
variable {M : Type*} [AddCommGroup M] [Module ℝ M]

theorem trapz_snoc (g : List ℝ) (x y : ℝ) (f : ℝ → M) :
    trapz (g ++ [x, y]) ((g ++ [x, y]).map f) =
      trapz (g ++ [x]) ((g ++ [x]).map f) + ((y - x) / 2) • (f x + f y) := by
  induction g with
  | nil => simp [trapz]
  | cons a g ih =>
    cases g with
    | nil => simp [trapz, add_assoc]
    | cons b g =>
      simp only [List.cons_append] at ih ⊢
      rw [trapz_cons2, trapz_cons2, ih, add_assoc]

theorem trapz_reflect (g : List ℝ) (f : ℝ → M) :
    trapz (g.reverse.map fun x => -x) ((g.reverse.map fun x => -x).map fun x => f (-x)) = trapz g (g.map f) := by
  induction g with
  | nil => rfl
  | cons x l ih =>
    cases l with
    | nil => rfl
    | cons y l =>
      have e : (List.map (fun x : ℝ => -x) (x :: y :: l).reverse) = (l.reverse.map fun x => -x) ++ [-y, -x] := by simp
      have e' : (List.map (fun x : ℝ => -x) (y :: l).reverse) = (l.reverse.map fun x => -x) ++ [-y] := by simp
      rw [e, trapz_snoc, trapz_cons2, ← ih, e', add_comm]
      congr 1
      simp only [neg_neg]
      rw [add_comm (f y)]
      congr 1
      ring

/-- On a symmetric grid the trapezoid sum does not change under reflection of the integrand. -/
theorem trapz_symm {g : List ℝ} (hg : g.reverse.map (fun x => -x) = g) (f : ℝ → M) :
    trapz g (g.map fun x => f (-x)) = trapz g (g.map f) := by
  have := trapz_reflect g f
  rwa [hg] at this

theorem trapz_neg (g : List ℝ) (f : ℝ → M) : trapz g (g.map fun x => -f x) = -trapz g (g.map f) :=
  trapz_map (fun x : M => -x) neg_zero (fun a b => by abel) (fun r a => (smul_neg r a).symm) g f

end sym

/-- An odd integrand has zero trapezoid sum on a symmetric grid. -/
theorem trapz_odd {g : List ℝ} (hg : g.reverse.map (fun x => -x) = g) {f : ℝ → ℝ} (hf : ∀ x ∈ g, f (-x) = -f x) :
    trapz g (g.map f) = 0 := by
  have h1 := trapz_symm hg f
  rw [trapz_congr hf, trapz_neg] at h1
  linarith

theorem trapz_smul_right (g : List ℝ) (f : ℝ → ℝ) (c : ℝ) :
    trapz g (g.map fun x => c * f x) = c * trapz g (g.map f) :=
  trapz_map (fun x : ℝ => c * x) (mul_zero c) (fun a b => mul_add c a b) (fun r a => by simp; ring) g f

theorem quad23_smul (g2 g3 : List ℝ) (f : ℝ → ℝ → ℝ) (c : ℝ) :
    quad23 g2 g3 (fun x y => c * f x y) = c * quad23 g2 g3 f :=
  quad23_map (fun x : ℝ => c * x) (mul_zero c) (fun a b => mul_add c a b) (fun r a => by simp; ring) g2 g3 f

/-- A NaN sample makes the trapezoid sum NaN (grid of at least two points). -/
theorem trapz_nan {g : List ℝ} (hg : 2 ≤ g.length) {f : ℝ → Fl} (h : ∃ x ∈ g, f x = nan) :
    trapz g (g.map f) = nan := by
  induction g with
  | nil => simp at hg
  | cons x l ih =>
    cases l with
    | nil => simp at hg
    | cons y l =>
      rw [trapz_cons2]
      obtain ⟨z, hz, hfz⟩ := h
      rcases List.mem_cons.1 hz with rfl | hz
      · simp [hfz]
      · rcases List.mem_cons.1 hz with rfl | hz'
        · simp [hfz]
        · cases l with
          | nil => simp at hz'
          | cons w l => rw [ih (by simp) ⟨z, hz, hfz⟩]; simp

theorem quad23_nan {g2 g3 : List ℝ} (h2 : 2 ≤ g2.length) (h3 : 2 ≤ g3.length) {f : ℝ → ℝ → Fl}
    (h : ∃ x ∈ g2, ∃ y ∈ g3, f x y = nan) : quad23 g2 g3 f = nan := by
  obtain ⟨x, hx, hy⟩ := h
  exact trapz_nan h2 ⟨x, hx, trapz_nan h3 hy⟩

end
end Verif
