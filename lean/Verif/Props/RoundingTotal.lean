import Verif.Model.RoundedLoss
import Verif.Props.LossValue
import Verif.Props.RoundingLoss

/-!
# C146: slopes, penalties and the total loss in rounded arithmetic

Slopes are differences of logarithms, so their errors are absolute.  All terms of the loss are means of squares; the roots of means of
squares are norms, and the errors of the entries pass through them unchanged.
-/

namespace Verif
open Fl Fmt Spec

noncomputable section

/-- Error of a result of magnitude at most `M` that was computed from inputs giving an error `d` and was then rounded with relative
error `v`. -/
def Spec.rounded (v M d : ℝ) : ℝ := d + v * (M + d)

/-- What the error of the slopes depends on: accuracy `v` of one operation, factor `exp a` of the spectra, bound `Y` of the logarithms
of the spectra, bound `K` of the logarithms of the wavenumbers, smallest logarithmic step `h`. -/
structure Spec.GridErrors where
  v : ℝ
  a : ℝ
  Y : ℝ
  K : ℝ
  h : ℝ

namespace Spec.GridErrors
variable (g : Spec.GridErrors)

/-- Difference of two neighbouring log spectra. -/
def diff : ℝ := rounded g.v (2 * g.Y) (2 * rounded g.v g.Y g.a)
/-- Step of the grid of logarithmic wavenumbers. -/
def step1 : ℝ := rounded g.v (2 * g.K) (2 * rounded g.v g.K 0)
/-- Largest slope. -/
def maxSlope : ℝ := 2 * g.Y / g.h
/-- Slope. -/
def slope : ℝ := rounded g.v g.maxSlope ((g.diff + g.maxSlope * g.step1) / (g.h - g.step1))
/-- Midpoint. -/
def middle : ℝ := rounded g.v g.K (rounded g.v (2 * g.K) (2 * rounded g.v g.K 0) / 2)
/-- Distance of two midpoints. -/
def step2 : ℝ := rounded g.v (2 * g.K) (2 * g.middle)
/-- Largest curvature. -/
def maxCurvature : ℝ := 2 * g.maxSlope / g.h
/-- Curvature. -/
def curvature : ℝ :=
  rounded g.v g.maxCurvature ((rounded g.v (2 * g.maxSlope) (2 * g.slope) + g.maxCurvature * g.step2) / (g.h - g.step2))

end Spec.GridErrors

theorem rounded_nonneg {v M d : ℝ} (hv : 0 ≤ v) (hM : 0 ≤ M) (hd : 0 ≤ d) : 0 ≤ rounded v M d := by
  unfold rounded; positivity

theorem rounded_mono {v M d M' d' : ℝ} (hv : 0 ≤ v) (hM : M ≤ M') (hd : d ≤ d') : rounded v M d ≤ rounded v M' d' := by
  unfold rounded
  have := mul_le_mul_of_nonneg_left (add_le_add hM hd) hv
  linarith

variable {A : Fmt}

/-- Any function with relative error `v`, applied to a perturbed argument. -/
theorem abs_rounded {f x' x M d v : ℝ} (hv : 0 ≤ v) (hf : |f - x'| ≤ v * |x'|) (h : |x' - x| ≤ d) (hM : |x| ≤ M) :
    |f - x| ≤ rounded v M d := by
  have h1 : |x'| ≤ M + d := by
    have := abs_sub_abs_le_abs_sub x' x
    linarith
  have h2 := mul_le_mul_of_nonneg_left h1 hv
  have e : f - x = (f - x') + (x' - x) := by ring
  unfold rounded
  rw [e]
  refine (abs_add_le _ _).trans ?_
  linarith

theorem rnd_v (x : ℝ) : |A.rnd x - x| ≤ A.v * |x| := (A.err x).trans (mul_le_mul_of_nonneg_right A.uv (abs_nonneg _))

theorem sub_rounded {x x' y y' M a : ℝ} (hx : |x' - x| ≤ a) (hy : |y' - y| ≤ a) (mx : |x| ≤ M) (my : |y| ≤ M) :
    |A.sub x' y' - (x - y)| ≤ rounded A.v (2 * M) (2 * a) := by
  refine abs_rounded A.v0 (rnd_v _) ?_ ?_
  · have e : x' - y' - (x - y) = (x' - x) - (y' - y) := by ring
    rw [e]
    exact (abs_sub _ _).trans (by linarith)
  · exact (abs_sub _ _).trans (by linarith)

theorem add_rounded {x x' y y' M a : ℝ} (hx : |x' - x| ≤ a) (hy : |y' - y| ≤ a) (mx : |x| ≤ M) (my : |y| ≤ M) :
    |A.add x' y' - (x + y)| ≤ rounded A.v (2 * M) (2 * a) := by
  refine abs_rounded A.v0 (rnd_v _) ?_ ?_
  · have e : x' + y' - (x + y) = (x' - x) + (y' - y) := by ring
    rw [e]
    exact (abs_add_le _ _).trans (by linarith)
  · exact (abs_add_le _ _).trans (by linarith)

/-- A quotient whose denominator is at least `h` and known up to `m < h`. -/
theorem div_rounded {D D' h h' h0 n m S : ℝ} (hD : |D' - D| ≤ n) (hh : |h' - h| ≤ m) (h1 : h0 ≤ h) (h2 : m < h0) (hS : |D / h| ≤ S) :
    |A.div D' h' - D / h| ≤ rounded A.v S ((n + S * m) / (h0 - m)) := by
  have m0 : 0 ≤ m := (abs_nonneg _).trans hh
  have hp : 0 < h := by linarith
  have hq : h0 - m ≤ h' := by have := (abs_le.1 hh).1; linarith
  have hp' : 0 < h' := by linarith
  have S0 : 0 ≤ S := (abs_nonneg _).trans hS
  have n0 : 0 ≤ n := (abs_nonneg _).trans hD
  refine abs_rounded A.v0 (rnd_v _) ?_ hS
  have e : D' / h' - D / h = ((D' - D) - D / h * (h' - h)) / h' := by field_simp; ring
  rw [e, abs_div, abs_of_pos hp']
  have h3 : |(D' - D) - D / h * (h' - h)| ≤ n + S * m := by
    refine (abs_sub _ _).trans (add_le_add hD ?_)
    rw [abs_mul]
    exact mul_le_mul hS hh (abs_nonneg _) S0
  exact div_le_div₀ (by positivity) h3 (by linarith) hq

/-- The grid, the exact spectrum `y` and the computed one `y'` of one component. -/
structure Spec.NearRow (A : Fmt) (g : Spec.GridErrors) (n : ℕ) (k y y' : ℕ → ℝ) : Prop where
  v : g.v = A.v
  pos : ∀ j < n, 0 < k j
  logk : ∀ j < n, |Real.log (k j)| ≤ g.K
  step : ∀ j, j + 1 < n → g.h ≤ Real.log (k (j + 1)) - Real.log (k j)
  ne : ∀ j < n, y j ≠ 0
  logy : ∀ j < n, |Real.log (|y j|)| ≤ g.Y
  near : ∀ j < n, LogNear g.a (y j) (y' j)
  steps : g.step1 < g.h

namespace Spec.NearRow
variable {g : Spec.GridErrors} {n : ℕ} {k y y' : ℕ → ℝ} (H : Spec.NearRow A g n k y y')
include H

theorem logk_near {j : ℕ} (hj : j < n) : |A.logF (k j) - Real.log (k j)| ≤ rounded A.v g.K 0 :=
  abs_rounded A.v0 (A.log_err _) (by simp) (H.logk j hj)

theorem logy_near {j : ℕ} (hj : j < n) : abs (A.logF |y' j| - Real.log |y j|) ≤ rounded A.v g.Y g.a :=
  abs_rounded A.v0 (A.log_err _) ((H.near j hj).abs.abs_log (abs_pos.2 (H.ne j hj))) (H.logy j hj)

theorem step1_near {j : ℕ} (hj : j + 1 < n) : |A.step1 k j - (Real.log (k (j + 1)) - Real.log (k j))| ≤ g.step1 := by
  unfold Spec.GridErrors.step1
  rw [H.v]
  exact sub_rounded (H.logk_near hj) (H.logk_near (by omega)) (H.logk _ hj) (H.logk _ (by omega))

theorem h_pos (hj : 1 < n) : 0 < g.h := by
  have h1 := H.step1_near (j := 0) (by omega)
  have := (abs_nonneg _).trans h1
  linarith [H.steps]

theorem slope_le {j : ℕ} (hj : j + 1 < n) : |logSlope k y j| ≤ g.maxSlope := by
  have h0 := H.h_pos (by omega)
  have hs := H.step j hj
  have h1 := H.logy _ hj
  have h2 := H.logy j (by omega)
  unfold logSlope Spec.GridErrors.maxSlope
  rw [abs_div, abs_of_pos (show 0 < Real.log (k (j + 1)) - Real.log (k j) by linarith)]
  have h3 : abs (Real.log |y (j + 1)| - Real.log |y j|) ≤ 2 * g.Y := (abs_sub _ _).trans (by linarith)
  exact div_le_div₀ ((abs_nonneg _).trans h3) h3 h0 hs

theorem slope_near {j : ℕ} (hj : j + 1 < n) : |A.slopeOf k y' j - logSlope k y j| ≤ g.slope := by
  have h1 : abs (A.sub (A.logF |y' (j + 1)|) (A.logF |y' j|) - (Real.log |y (j + 1)| - Real.log |y j|)) ≤ g.diff := by
    unfold Spec.GridErrors.diff
    rw [H.v]
    exact sub_rounded (H.logy_near hj) (H.logy_near (by omega)) (H.logy _ hj) (H.logy _ (by omega))
  unfold Spec.GridErrors.slope
  rw [H.v]
  exact div_rounded h1 (H.step1_near hj) (H.step j hj) H.steps (H.slope_le hj)

theorem middle_near {j : ℕ} (hj : j + 1 < n) :
    |A.middle k j - (Real.log (k j) + Real.log (k (j + 1))) / 2| ≤ g.middle := by
  have h1 := add_rounded (A := A) (H.logk_near (show j < n by omega)) (H.logk_near hj) (H.logk _ (by omega)) (H.logk _ hj)
  unfold Spec.GridErrors.middle
  rw [H.v]
  refine abs_rounded A.v0 (rnd_v _) ?_ ?_
  · have e : (0.5:ℝ) * A.add (A.logF (k j)) (A.logF (k (j + 1))) - (Real.log (k j) + Real.log (k (j + 1))) / 2 =
        (A.add (A.logF (k j)) (A.logF (k (j + 1))) - (Real.log (k j) + Real.log (k (j + 1)))) / 2 := by ring
    rw [e, abs_div, abs_two]
    exact div_le_div_of_nonneg_right h1 (by norm_num)
  · rw [abs_div, abs_two, div_le_iff₀ (by norm_num)]
    have := H.logk j (by omega)
    have := H.logk _ hj
    exact (abs_add_le _ _).trans (by linarith)

theorem step2_near {j : ℕ} (hj : j + 2 < n) : |A.step2 k j - (Real.log (k (j + 2)) - Real.log (k j)) / 2| ≤ g.step2 := by
  unfold Spec.GridErrors.step2
  rw [H.v]
  have hm : ∀ i, i + 1 < n → |(Real.log (k i) + Real.log (k (i + 1))) / 2| ≤ g.K := by
    intro i hi
    rw [abs_div, abs_two, div_le_iff₀ (by norm_num)]
    have := H.logk i (by omega)
    have := H.logk _ hi
    exact (abs_add_le _ _).trans (by linarith)
  have := sub_rounded (A := A) (H.middle_near (j := j + 1) (by omega)) (H.middle_near (j := j) (by omega)) (hm _ (by omega))
    (hm _ (by omega))
  have e : (Real.log (k (j + 1)) + Real.log (k (j + 1 + 1))) / 2 - (Real.log (k j) + Real.log (k (j + 1))) / 2 =
      (Real.log (k (j + 2)) - Real.log (k j)) / 2 := by ring
  rw [e] at this
  exact this

theorem curvature_near (h2 : g.step2 < g.h) {j : ℕ} (hj : j + 2 < n) :
    |A.curvatureOf k y' j - logCurvature k y j| ≤ g.curvature := by
  have h0 := H.h_pos (by omega)
  have s1 := H.slope_le (j := j + 1) (by omega)
  have s0 := H.slope_le (j := j) (by omega)
  have hh : g.h ≤ (Real.log (k (j + 2)) - Real.log (k j)) / 2 := by
    have := H.step j (by omega)
    have := H.step (j + 1) (by omega)
    rw [show j + 1 + 1 = j + 2 from rfl] at this
    linarith
  have hd := sub_rounded (A := A) (H.slope_near (j := j + 1) (by omega)) (H.slope_near (j := j) (by omega)) s1 s0
  have hc : |logCurvature k y j| ≤ g.maxCurvature := by
    unfold logCurvature Spec.GridErrors.maxCurvature
    rw [abs_div, abs_of_pos (show 0 < (Real.log (k (j + 2)) - Real.log (k j)) / 2 by linarith)]
    have h3 : |logSlope k y (j + 1) - logSlope k y j| ≤ 2 * g.maxSlope := (abs_sub _ _).trans (by linarith)
    exact div_le_div₀ ((abs_nonneg _).trans h3) h3 h0 hh
  unfold Spec.GridErrors.curvature
  rw [H.v]
  exact div_rounded hd (H.step2_near hj) hh h2 hc

end Spec.NearRow

/-! ### Means of squares over tables -/

/-- The positions of a table. -/
def Spec.cells (m n : ℕ) : List (ℕ × ℕ) := (table m n Prod.mk).flatten

theorem table_cells {α : Type} (m n : ℕ) (f : ℕ → ℕ → α) : (table m n f).flatten = (cells m n).map fun q => f q.1 q.2 := by
  unfold cells table
  rw [List.map_flatten, List.map_map]
  congr 1
  refine List.map_congr_left fun i _ => ?_
  simp

theorem mem_cells {m n : ℕ} {q : ℕ × ℕ} (h : q ∈ cells m n) : q.1 < m ∧ q.2 < n := by
  unfold cells table at h
  obtain ⟨l, hl, hq⟩ := List.mem_flatten.1 h
  obtain ⟨i, hi, rfl⟩ := List.mem_map.1 hl
  obtain ⟨j, hj, rfl⟩ := List.mem_map.1 hq
  exact ⟨List.mem_range.1 hi, List.mem_range.1 hj⟩

theorem cells_length (m n : ℕ) : (cells m n).length = m * n := table_flatten_length m n _

theorem mean2_cells (m n : ℕ) (f : ℕ → ℕ → ℝ) :
    mean2 m n f = ((cells m n).map fun q => f q.1 q.2).sum / (cells m n).length := by
  unfold mean2
  rw [← table_cells, table_flatten_sum, cells_length]
  push_cast
  rfl

theorem grid_zip (f : ℝ → ℝ → ℝ) (m n : ℕ) (a b : ℕ → ℕ → ℝ) :
    List.zipWith (fun r s => List.zipWith f r s) (grid m n a) (grid m n b) = table m n fun i j => f (a i j) (b i j) := by
  unfold grid table
  rw [List.zipWith_map]
  apply List.ext_getElem
  · simp
  · intro i h1 h2
    simp only [List.getElem_zipWith, List.getElem_map, List.zipWith_map]
    apply List.ext_getElem
    · simp
    · intro j h3 h4
      simp

/-- `l` is, up to `c` roundings, the square of a norm that differs by at most `η` from the root of `ℓ`. -/
def Spec.TermNear (A : Fmt) (c η ℓ l : ℝ) : Prop := ∃ M, 0 ≤ M ∧ LogNear (c * A.e) M l ∧ |Real.sqrt M - Real.sqrt ℓ| ≤ η

theorem Spec.TermNear.mono {c c' η η' ℓ l : ℝ} (h : TermNear A c η ℓ l) (hc : c ≤ c') (hη : η ≤ η') : TermNear A c' η' ℓ l := by
  obtain ⟨M, h1, h2, h3⟩ := h
  exact ⟨M, h1, h2.mono (mul_le_mul_of_nonneg_right hc A.e_nonneg), h3.trans hη⟩

theorem termNear_zero (A : Fmt) {c η : ℝ} (hc : 0 ≤ c) (hη : 0 ≤ η) : TermNear A c η 0 0 :=
  ⟨0, le_rfl, (LogNear.refl 0).mono (mul_nonneg hc A.e_nonneg), by simpa using hη⟩

/-- The root of such a term. -/
theorem Spec.TermNear.root {c η ℓ l : ℝ} (h : TermNear A c η ℓ l) : 0 ≤ l ∧
    abs (Real.sqrt l - Real.sqrt ℓ) ≤ (Real.exp (c / 2 * A.e) - 1) * Real.sqrt ℓ + Real.exp (c / 2 * A.e) * η := by
  obtain ⟨M, h1, h2, h3⟩ := h
  exact ⟨h2.nonneg_right h1, root_error (h2.mono (le_of_eq (by ring))) h3⟩

theorem mean2_nonneg (m n : ℕ) (f : ℕ → ℕ → ℝ) (h : ∀ i j, 0 ≤ f i j) : 0 ≤ mean2 m n f := by
  unfold mean2
  exact div_nonneg (Finset.sum_nonneg fun i _ => Finset.sum_nonneg fun j _ => h i j) (by positivity)

/-- The mean of the squares of computed entries. -/
theorem table_squares {m n : ℕ} (f x c : ℕ → ℕ → ℝ) {δ r : ℝ} (h0 : 0 ≤ δ) (hr : 0 ≤ r)
    (hf : ∀ i < m, ∀ j < n, |x i j - f i j| ≤ δ) (hc : ∀ i < m, ∀ j < n, LogNear (r * A.e) (x i j) (c i j)) {s : ℝ} {d : ℕ}
    (hs : Summation A (table m n fun i j => A.sq (c i j)).flatten s d) :
    LogNear ((2 * r + d + 2) * A.e) (mean2 m n fun i j => x i j ^ 2)
      (A.div s (table m n fun i j => A.sq (c i j)).flatten.length) ∧
    abs (Real.sqrt (mean2 m n fun i j => x i j ^ 2) - Real.sqrt (mean2 m n fun i j => f i j ^ 2)) ≤ δ := by
  rw [table_cells] at hs
  rw [table_cells, List.length_map, mean2_cells, mean2_cells]
  constructor
  · have := mean_sq_near (A := A) (cells m n) (fun q => x q.1 q.2) (fun q => c q.1 q.2)
      (fun q hq => hc _ (mem_cells hq).1 _ (mem_cells hq).2) (mul_nonneg hr A.e_nonneg) hs
    exact this.mono (le_of_eq (by ring))
  · exact rms_near (cells m n) (fun q => f q.1 q.2) (fun q => x q.1 q.2) h0 fun q hq => hf _ (mem_cells hq).1 _ (mem_cells hq).2

/-- Multiplying by a coefficient. -/
theorem termNear_scale {c w M ℓ δ l : ℝ} (hw : 0 ≤ w) (hM : 0 ≤ M) (h : LogNear (c * A.e) (w * M) l)
    (hd : |Real.sqrt M - Real.sqrt ℓ| ≤ δ) : TermNear A c (Real.sqrt w * δ) (w * ℓ) l := by
  refine ⟨w * M, by positivity, h, ?_⟩
  rw [Real.sqrt_mul hw, Real.sqrt_mul hw, ← mul_sub, abs_mul, abs_of_nonneg (Real.sqrt_nonneg _)]
  exact mul_le_mul_of_nonneg_left hd (Real.sqrt_nonneg _)

theorem relu_near {x y δ : ℝ} (h : |x - y| ≤ δ) : |max x 0 - max y 0| ≤ δ :=
  (abs_max_sub_max_le_abs x y 0).trans h

/-! ### The five terms -/

theorem mse_term {m n : ℕ} {y y' t : ℕ → ℕ → ℝ} {a : ℝ} (ha : 0 ≤ a) (hy : ∀ i < m, ∀ j < n, y i j ≠ 0)
    (ht : ∀ i < m, ∀ j < n, t i j ≠ 0) (hn : ∀ i < m, ∀ j < n, LogNear a (y i j) (y' i j)) {l : ℝ} {d : ℕ}
    (h : A.MseOf (grid m n y') (grid m n t) l d) : TermNear A (d + 4) (a + A.e) (tableMisfit m n y t) l := by
  obtain ⟨s, hs, rfl⟩ := h
  rw [grid_zip] at hs ⊢
  obtain ⟨h1, h2⟩ := table_squares (A := A) (fun i j => Real.log |y i j| - Real.log |t i j|)
    (fun i j => Real.log |A.div (y' i j) (t i j)|) (fun i j => A.logF |A.div (y' i j) (t i j)|)
    (add_nonneg ha A.e_nonneg) zero_le_one (fun i hi j hj => by
      have h3 : LogNear (a + A.e) |y i j / t i j| |A.div (y' i j) (t i j)| :=
        ((A.div_near (hn i hi j hj) (LogNear.refl (t i j))).abs).mono (le_of_eq (by ring))
      have := h3.abs_log (abs_pos.2 (div_ne_zero (hy i hi j hj) (ht i hi j hj)))
      rwa [abs_div, Real.log_div (abs_ne_zero.2 (hy i hi j hj)) (abs_ne_zero.2 (ht i hi j hj))] at this)
    (fun i hi j hj => by rw [one_mul]; exact A.log_near _) hs
  exact ⟨_, mean2_nonneg _ _ _ fun _ _ => sq_nonneg _, h1.mono (mul_le_mul_of_nonneg_right (by linarith) A.e_nonneg), h2⟩

theorem pen1_term {g : Spec.GridErrors} {m n : ℕ} {k : ℕ → ℝ} {y y' : ℕ → ℕ → ℝ} (hn : 2 ≤ n) (hm : 0 < m)
    (H : ∀ i < m, NearRow A g n k (y i) (y' i)) {α zref : ℝ} (hα : 0 ≤ α) (hz : 0 < zref) {l : ℝ} {d : ℕ}
    (h : A.Pen1Of α zref m n k y' l d) :
    TermNear A (d + 4) (Real.sqrt (α / zref) * g.slope) (α * slopePenalty m n k y / zref) l := by
  obtain ⟨s, hs, rfl⟩ := h
  have g0 : 0 ≤ g.slope := (abs_nonneg _).trans ((H 0 hm).slope_near (j := 0) (by omega))
  obtain ⟨h1, h2⟩ := table_squares (A := A) (fun i j => max (logSlope k (y i) j) 0) (fun i j => max (A.slopeOf k (y' i) j) 0)
    (fun i j => max (A.slopeOf k (y' i) j) 0) g0 le_rfl
    (fun i hi j hj => relu_near ((H i hi).slope_near (by omega))) (fun i _ j _ => (LogNear.refl _).mono (by simp)) hs
  have h3 := A.div_near (A.mul_near (LogNear.refl α) h1) (LogNear.refl zref)
  have e : α * slopePenalty m n k y / zref = α / zref * slopePenalty m n k y := by ring
  rw [e]
  refine termNear_scale (by positivity) (mean2_nonneg _ _ _ fun _ _ => sq_nonneg _) ?_ h2
  rw [show α / zref * (mean2 m (n - 1) fun i j => max (A.slopeOf k (y' i) j) 0 ^ 2) =
    α * (mean2 m (n - 1) fun i j => max (A.slopeOf k (y' i) j) 0 ^ 2) / zref by ring]
  exact h3.mono (le_of_eq (by ring))

theorem pen2_term {g : Spec.GridErrors} {m n : ℕ} {k : ℕ → ℝ} {y y' : ℕ → ℕ → ℝ} (hn : 3 ≤ n) (hm : 0 < m)
    (H : ∀ i < m, NearRow A g n k (y i) (y' i)) (hg : g.step2 < g.h) {α zref : ℝ} (hα : 0 ≤ α) (hz : 0 < zref) {l : ℝ} {d : ℕ}
    (h : A.Pen2Of α zref m n k y' l d) :
    TermNear A (d + 5) (Real.sqrt α / zref * g.curvature) (α * curvaturePenalty m n k y / zref ^ 2) l := by
  obtain ⟨s, hs, rfl⟩ := h
  have g0 : 0 ≤ g.curvature := (abs_nonneg _).trans ((H 0 hm).curvature_near hg (j := 0) (by omega))
  obtain ⟨h1, h2⟩ := table_squares (A := A) (fun i j => max (logCurvature k (y i) j) 0) (fun i j => max (A.curvatureOf k (y' i) j) 0)
    (fun i j => max (A.curvatureOf k (y' i) j) 0) g0 le_rfl
    (fun i hi j hj => relu_near ((H i hi).curvature_near hg (by omega))) (fun i _ j _ => (LogNear.refl _).mono (by simp)) hs
  have h3 := A.div_near (A.mul_near (LogNear.refl α) h1) (A.sq_near (LogNear.refl zref))
  have e : α * curvaturePenalty m n k y / zref ^ 2 = α / zref ^ 2 * curvaturePenalty m n k y := by ring
  have e2 : Real.sqrt α / zref = Real.sqrt (α / zref ^ 2) := by rw [Real.sqrt_div hα, Real.sqrt_sq hz.le]
  rw [e, e2]
  refine termNear_scale (by positivity) (mean2_nonneg _ _ _ fun _ _ => sq_nonneg _) ?_ h2
  rw [show α / zref ^ 2 * (mean2 m (n - 2) fun i j => max (A.curvatureOf k (y' i) j) 0 ^ 2) =
    α * (mean2 m (n - 2) fun i j => max (A.curvatureOf k (y' i) j) 0 ^ 2) / (zref * zref) by ring]
  exact h3.mono (le_of_eq (by ring))

/-- A mean squared difference: the entries `M'` are known up to `δ`. -/
theorem msd_near {a b : ℕ} {M' D : ℕ → ℕ → ℝ} {l : ℝ} {d : ℕ} (h : A.MsdOf (grid a b M') (grid a b D) l d) :
    LogNear ((d + 4) * A.e) (mean2 a b fun i j => (M' i j - D i j) ^ 2) l := by
  obtain ⟨s, hs, rfl⟩ := h
  rw [grid_zip] at hs ⊢
  obtain ⟨h1, -⟩ := table_squares (A := A) (m := a) (n := b) (fun i j => M' i j - D i j) (fun i j => M' i j - D i j)
    (fun i j => A.sub (M' i j) (D i j)) le_rfl zero_le_one (by simp) (fun i _ j _ => by rw [one_mul]; exact A.rnd_near _) hs
  exact h1.mono (le_of_eq (by ring))

theorem coherenceMisfit_near {a b : ℕ} (M M' D : Fin 3 → ℕ → ℕ → ℝ) {δ : ℝ} (h0 : 0 ≤ δ)
    (h : ∀ c, ∀ i < a, ∀ j < b, |M' c i j - M c i j| ≤ δ) :
    abs (Real.sqrt (coherenceMisfit a b M' D) - Real.sqrt (coherenceMisfit a b M D)) ≤ δ := by
  have key : ∀ N : Fin 3 → ℕ → ℕ → ℝ, coherenceMisfit a b N D =
      (((cells a b).map (fun q => ((0 : Fin 3), q)) ++ ((cells a b).map (fun q => ((1 : Fin 3), q)) ++
        (cells a b).map fun q => ((2 : Fin 3), q))).map fun r => (N r.1 r.2.1 r.2.2 - D r.1 r.2.1 r.2.2) ^ 2).sum /
      (((cells a b).map (fun q => ((0 : Fin 3), q)) ++ ((cells a b).map (fun q => ((1 : Fin 3), q)) ++
        (cells a b).map fun q => ((2 : Fin 3), q))).length : ℝ) := by
    intro N
    unfold coherenceMisfit
    rw [Fin.sum_univ_three, mean2_cells, mean2_cells, mean2_cells]
    simp only [List.map_append, List.map_map, Function.comp_def, List.sum_append, List.length_append, List.length_map]
    push_cast
    rw [← add_div, ← add_div, div_div]
    congr 1 <;> ring
  rw [key, key]
  refine rms_near _ (fun r : Fin 3 × ℕ × ℕ => M r.1 r.2.1 r.2.2 - D r.1 r.2.1 r.2.2)
    (fun r => M' r.1 r.2.1 r.2.2 - D r.1 r.2.1 r.2.2) h0 ?_
  intro r hr
  have hm : r.2.1 < a ∧ r.2.2 < b := by
    simp only [List.mem_append, List.mem_map] at hr
    rcases hr with ⟨q, hq, rfl⟩ | ⟨q, hq, rfl⟩ | ⟨q, hq, rfl⟩ <;> exact mem_cells hq
  have e : M' r.1 r.2.1 r.2.2 - D r.1 r.2.1 r.2.2 - (M r.1 r.2.1 r.2.2 - D r.1 r.2.1 r.2.2) =
    M' r.1 r.2.1 r.2.2 - M r.1 r.2.1 r.2.2 := by ring
  rw [e]
  exact h _ _ hm.1 _ hm.2

theorem coh_term {a b : ℕ} {M M' D : Fin 3 → ℕ → ℕ → ℝ} {δ : ℝ} (h0 : 0 ≤ δ)
    (hM : ∀ c, ∀ i < a, ∀ j < b, |M' c i j - M c i j| ≤ δ) {γ : ℝ} (hγ : 0 ≤ γ) {l : ℝ} {d : ℕ} (h : A.CohOf γ a b M' D l d) :
    TermNear A (d + 8) (Real.sqrt γ * δ) (γ * coherenceMisfit a b M D) l := by
  obtain ⟨mu, mv, mw, ⟨d1, b1, hu⟩, ⟨d2, b2, hv⟩, ⟨d3, b3, hw⟩, rfl⟩ := h
  have e0 := A.e_nonneg
  have up : ∀ {d' : ℕ}, d' ≤ d → ((d' : ℝ) + 4) * A.e ≤ (d + 4) * A.e := fun h =>
    mul_le_mul_of_nonneg_right (by have : ((_ : ℕ) : ℝ) ≤ d := Nat.cast_le.2 h; linarith) e0
  have hu' := (msd_near hu).mono (up b1)
  have hv' := (msd_near hv).mono (up b2)
  have hw' := (msd_near hw).mono (up b3)
  have p : ∀ c, 0 ≤ mean2 a b fun i j => (M' c i j - D c i j) ^ 2 := fun c => mean2_nonneg _ _ _ fun _ _ => sq_nonneg _
  have s1 := A.add_near hu' hv' (p 0) (p 1)
  have s2 := A.add_near s1 (hw'.mono (by linarith)) (add_nonneg (p 0) (p 1)) (p 2)
  have s3 := A.mul_near (LogNear.refl γ) (A.div_near s2 (LogNear.refl 3))
  refine termNear_scale hγ ?_ ?_ (coherenceMisfit_near M M' D h0 hM)
  · unfold coherenceMisfit
    exact div_nonneg (Finset.sum_nonneg fun c _ => p c) (by norm_num)
  · unfold coherenceMisfit
    rw [Fin.sum_univ_three]
    exact s3.mono (le_of_eq (by ring))

theorem reg_term {θ : List ℝ} {β : ℝ} (hβ : 0 ≤ β) {l : ℝ} {d : ℕ} (h : A.RegOf β θ l d) :
    TermNear A (d + 3) 0 (β * ((θ.map fun x => x ^ 2).sum / θ.length)) l := by
  obtain ⟨s, hs, rfl⟩ := h
  have near := mean_sq_near θ (fun x => x) (fun x => x) (fun x _ => LogNear.refl x) le_rfl hs
  have n0 : (0 : ℝ) ≤ (θ.map fun x : ℝ => x ^ 2).sum / (θ.length : ℝ) :=
    div_nonneg (sum_nonneg_map _ _ fun _ _ => sq_nonneg _) (by positivity)
  exact ⟨_, mul_nonneg hβ n0, (A.mul_near (LogNear.refl β) near).mono (le_of_eq (by ring)), by simp⟩

/-! ### Sums of terms -/

/-- Roots of sums: the triangle inequality in the plane. -/
theorem sqrt_add_near {x x' y y' a b : ℝ} (hx : 0 ≤ x) (hx' : 0 ≤ x') (hy : 0 ≤ y) (hy' : 0 ≤ y')
    (h : |Real.sqrt x' - Real.sqrt x| ≤ a) (h' : |Real.sqrt y' - Real.sqrt y| ≤ b) :
    |Real.sqrt (x' + y') - Real.sqrt (x + y)| ≤ Real.sqrt (a ^ 2 + b ^ 2) := by
  have tri : ∀ p q r s : ℝ, Real.sqrt (p ^ 2 + q ^ 2) ≤ Real.sqrt (r ^ 2 + s ^ 2) + Real.sqrt ((p - r) ^ 2 + (q - s) ^ 2) := by
    intro p q r s
    refine Real.sqrt_le_iff.2 ⟨by positivity, ?_⟩
    rw [add_sq, Real.sq_sqrt (by positivity), Real.sq_sqrt (by positivity), mul_assoc, ← Real.sqrt_mul (by positivity)]
    have h1 : r * (p - r) + s * (q - s) ≤ Real.sqrt ((r ^ 2 + s ^ 2) * ((p - r) ^ 2 + (q - s) ^ 2)) := by
      refine Real.le_sqrt_of_sq_le ?_
      have := sq_nonneg (r * (q - s) - s * (p - r))
      nlinarith
    nlinarith
  have up : ∀ p q r s : ℝ, |p - r| ≤ a → |q - s| ≤ b →
      Real.sqrt ((p - r) ^ 2 + (q - s) ^ 2) ≤ Real.sqrt (a ^ 2 + b ^ 2) := by
    intro p q r s h1 h2
    refine Real.sqrt_le_sqrt (add_le_add ?_ ?_)
    · rw [← sq_abs (p - r)]; exact pow_le_pow_left₀ (abs_nonneg _) h1 2
    · rw [← sq_abs (q - s)]; exact pow_le_pow_left₀ (abs_nonneg _) h2 2
  have t1 := tri (Real.sqrt x') (Real.sqrt y') (Real.sqrt x) (Real.sqrt y)
  have t2 := tri (Real.sqrt x) (Real.sqrt y) (Real.sqrt x') (Real.sqrt y')
  have u1 := up _ _ _ _ h h'
  have u2 := up (Real.sqrt x) (Real.sqrt y) (Real.sqrt x') (Real.sqrt y') (by rwa [abs_sub_comm]) (by rwa [abs_sub_comm])
  rw [Real.sq_sqrt hx', Real.sq_sqrt hy', Real.sq_sqrt hx, Real.sq_sqrt hy] at t1 t2
  rw [abs_le]
  constructor <;> linarith

theorem Spec.TermNear.add {c η η' ℓ ℓ' l l' : ℝ} (h : TermNear A c η ℓ l) (h' : TermNear A c η' ℓ' l') (hl : 0 ≤ ℓ) (hl' : 0 ≤ ℓ') :
    TermNear A (c + 1) (Real.sqrt (η ^ 2 + η' ^ 2)) (ℓ + ℓ') (A.add l l') := by
  obtain ⟨M, h1, h2, h3⟩ := h
  obtain ⟨M', h1', h2', h3'⟩ := h'
  exact ⟨M + M', add_nonneg h1 h1', (A.add_near h2 h2' h1 h1').mono (le_of_eq (by ring)), sqrt_add_near hl h1 hl' h1' h3 h3'⟩

/-- Five terms added from the left. -/
theorem termNear_five {c η1 η2 η3 η4 η5 ℓ1 ℓ2 ℓ3 ℓ4 ℓ5 l1 l2 l3 l4 l5 : ℝ} (h1 : TermNear A c η1 ℓ1 l1) (h2 : TermNear A c η2 ℓ2 l2)
    (h3 : TermNear A c η3 ℓ3 l3) (h4 : TermNear A c η4 ℓ4 l4) (h5 : TermNear A c η5 ℓ5 l5) (p1 : 0 ≤ ℓ1) (p2 : 0 ≤ ℓ2) (p3 : 0 ≤ ℓ3)
    (p4 : 0 ≤ ℓ4) (p5 : 0 ≤ ℓ5) :
    TermNear A (c + 4) (Real.sqrt (η1 ^ 2 + η2 ^ 2 + η3 ^ 2 + η4 ^ 2 + η5 ^ 2)) (ℓ1 + ℓ2 + ℓ3 + ℓ4 + ℓ5)
      (A.add (A.add (A.add (A.add l1 l2) l3) l4) l5) := by
  have a1 := h1.add h2 p1 p2
  have a2 := a1.add (h3.mono (by linarith) le_rfl) (by positivity) p3
  have a3 := a2.add (h4.mono (by linarith) le_rfl) (by positivity) p4
  have a4 := a3.add (h5.mono (by linarith) le_rfl) (by positivity) p5
  refine a4.mono (le_of_eq (by ring)) (le_of_eq ?_)
  rw [Real.sq_sqrt (by positivity), Real.sq_sqrt (by positivity), Real.sq_sqrt (by positivity)]

/-- **C146** The first-order penalty in rounded arithmetic.  The exact penalty is finite; the computed one is not negative, and its root
differs from the exact root by a relative error of `(d + 4) / 2` units and by the weighted error of a single slope. -/
theorem C146_first_order (A : Fmt) (p : LossParams) (hp : 0 ≤ p.alphaPen1) {g : Spec.GridErrors} {m n : ℕ} (hm : 0 < m) (hn : 2 ≤ n)
    {k : ℕ → ℝ} (hk : Ascending n k) {zref : ℝ} (hz : 0 < zref) {y y' : ℕ → ℕ → ℝ} (H : ∀ i < m, NearRow A g n k (y i) (y' i))
    {l : ℝ} {d : ℕ} (h : A.Pen1Of p.alphaPen1 zref m n k y' l d) :
    ∃ ℓ : ℝ, pen1 p ((List.range n).map k) zref (table m n fun i j => fin (y i j)) = .ok (fin ℓ) ∧ 0 ≤ l ∧
      abs (Real.sqrt l - Real.sqrt ℓ) ≤ (Real.exp ((d + 4) / 2 * A.e) - 1) * Real.sqrt ℓ +
        Real.exp ((d + 4) / 2 * A.e) * (Real.sqrt (p.alphaPen1 / zref) * g.slope) :=
  ⟨_, pen1_table p hm hn hk hz.ne' fun i hi => (H i hi).ne, (pen1_term hn hm H hp hz h).root⟩

/-- **C146** The second-order penalty in rounded arithmetic: the same with the error of a single curvature. -/
theorem C146_second_order (A : Fmt) (p : LossParams) (hp : 0 ≤ p.alphaPen2) {g : Spec.GridErrors} {m n : ℕ} (hm : 0 < m) (hn : 3 ≤ n)
    {k : ℕ → ℝ} (hk : Ascending n k) {zref : ℝ} (hz : 0 < zref) {y y' : ℕ → ℕ → ℝ} (H : ∀ i < m, NearRow A g n k (y i) (y' i))
    (hg : g.step2 < g.h) {l : ℝ} {d : ℕ} (h : A.Pen2Of p.alphaPen2 zref m n k y' l d) :
    ∃ ℓ : ℝ, pen2 p ((List.range n).map k) zref (table m n fun i j => fin (y i j)) = .ok (fin ℓ) ∧ 0 ≤ l ∧
      abs (Real.sqrt l - Real.sqrt ℓ) ≤ (Real.exp ((d + 5) / 2 * A.e) - 1) * Real.sqrt ℓ +
        Real.exp ((d + 5) / 2 * A.e) * (Real.sqrt p.alphaPen2 / zref * g.curvature) :=
  ⟨_, pen2_table p hm hn hk hz.ne' fun i hi => (H i hi).ne, (pen2_term hn hm H hg hp hz h).root⟩

/-- **C146** The coherence term in rounded arithmetic: predicted coherences known up to `δ` change its root by `sqrt gamma * δ`. -/
theorem C146_coherence (A : Fmt) (p : LossParams) (hp : 0 ≤ p.gammaCoherence) {a b : ℕ} (ha : 0 < a) (hb : 0 < b)
    {M M' D : Fin 3 → ℕ → ℕ → ℝ} {δ : ℝ} (h0 : 0 ≤ δ) (hM : ∀ c, ∀ i < a, ∀ j < b, |M' c i j - M c i j| ≤ δ) {l : ℝ} {d : ℕ}
    (h : A.CohOf p.gammaCoherence a b M' D l d) :
    ∃ ℓ : ℝ, coherenceLoss p (cohTables a b M D) = .ok (fin ℓ) ∧ 0 ≤ l ∧
      abs (Real.sqrt l - Real.sqrt ℓ) ≤ (Real.exp ((d + 8) / 2 * A.e) - 1) * Real.sqrt ℓ +
        Real.exp ((d + 8) / 2 * A.e) * (Real.sqrt p.gammaCoherence * δ) :=
  ⟨_, coherenceLoss_table p ha hb M D, (coh_term h0 hM hp h).root⟩

/-- A term that is evaluated only when its coefficient is positive. -/
theorem optional_term {c0 c η ℓ l : ℝ} {P : Prop} (hc : 0 ≤ c) (hη : 0 ≤ η) (h : if 0 < c0 then P else l = 0)
    (h1 : 0 < c0 → P → TermNear A c η ℓ l) (h2 : ¬0 < c0 → ℓ = 0) : TermNear A c η ℓ l := by
  by_cases hp : 0 < c0
  · rw [if_pos hp] at h
    exact h1 hp h
  · rw [if_neg hp] at h
    rw [h, h2 hp]
    exact termNear_zero A hc hη

/-- **C146** The complete loss in rounded arithmetic.  Spectra with relative errors `a`, coherences with absolute errors `δ`: the
computed total is not negative, and its root differs from the root of the value returned in exact arithmetic by a relative error of
`(d + 12) / 2` units and an absolute error that is the Euclidean norm of the weighted errors of a log spectrum, a coherence, a slope
and a curvature. -/
theorem C146_total (A : Fmt) (p : LossParams) {g : Spec.GridErrors} {m n a b : ℕ} (hm : 0 < m) (hn : 3 ≤ n) (ha : 0 < a) (hb : 0 < b)
    {k : ℕ → ℝ} (hk : Ascending n k) {zref : ℝ} (hz : 0 < zref) {y y' t : ℕ → ℕ → ℝ} (H : ∀ i < m, NearRow A g n k (y i) (y' i))
    (hg : g.step2 < g.h) (ht : ∀ i < m, ∀ j < n, t i j ≠ 0) {M M' D : Fin 3 → ℕ → ℕ → ℝ} {δ : ℝ} (h0 : 0 ≤ δ)
    (hM : ∀ c, ∀ i < a, ∀ j < b, |M' c i j - M c i j| ≤ δ) {θ : List ℝ} (hθ : θ ≠ []) (s : LossState) {L : ℝ} {d : ℕ}
    (h : A.LossOf p zref m n a b k y' t M' D θ L d) :
    ∃ T : ℝ, (lossEval p ((List.range n).map k) zref ⟨table m n fun i j => fin (y i j), table m n fun i j => fin (t i j),
        .vec (θ.map fin), some (cohTables a b M D)⟩ s).1 = .ok (fin T) ∧ 0 ≤ L ∧
      abs (Real.sqrt L - Real.sqrt T) ≤ (Real.exp ((d + 12) / 2 * A.e) - 1) * Real.sqrt T +
        Real.exp ((d + 12) / 2 * A.e) * Real.sqrt ((g.a + A.e) ^ 2 + (Real.sqrt (max p.gammaCoherence 0) * δ) ^ 2 +
          (Real.sqrt (max p.alphaPen1 0 / zref) * g.slope) ^ 2 + (Real.sqrt (max p.alphaPen2 0) / zref * g.curvature) ^ 2) := by
  refine ⟨_, C101_value p hm hn ha hb hk hz.ne' (fun i hi => (H i hi).ne) ht M D hθ s, ?_⟩
  have a0 : 0 ≤ g.a := ((H 0 hm).near 0 (by omega)).nonneg
  have g1 : 0 ≤ g.slope := (abs_nonneg _).trans ((H 0 hm).slope_near (j := 0) (by omega))
  have g2 : 0 ≤ g.curvature := (abs_nonneg _).trans ((H 0 hm).curvature_near hg (j := 0) (by omega))
  obtain ⟨l1, l2, l3, l4, l5, ⟨d1, b1, q1⟩, q2, q3, q4, q5, rfl⟩ := h
  have up : ∀ {d' : ℕ}, d' ≤ d → (d' : ℝ) ≤ d := fun h => Nat.cast_le.2 h
  have t1 := (mse_term a0 (fun i hi => (H i hi).ne) ht (fun i hi => (H i hi).near) q1).mono
    (show (d1 : ℝ) + 4 ≤ d + 8 by linarith [up b1]) le_rfl
  have c8 : (0:ℝ) ≤ d + 8 := by positivity
  have t2 : TermNear A (d + 8) (Real.sqrt (max p.gammaCoherence 0) * δ) (max p.gammaCoherence 0 * coherenceMisfit a b M D) l2 :=
    optional_term c8 (by positivity) q2
      (fun hp q => by rw [max_eq_left hp.le]; exact coh_term h0 hM hp.le q) (fun hp => by rw [max_eq_right (not_lt.1 hp), zero_mul])
  have t3 : TermNear A (d + 8) (Real.sqrt (max p.alphaPen1 0 / zref) * g.slope) (max p.alphaPen1 0 * slopePenalty m n k y / zref) l3 :=
    optional_term c8 (by positivity) q3
      (fun hp q => by
        obtain ⟨d', b', q⟩ := q
        rw [max_eq_left hp.le]
        exact (pen1_term (by omega) hm H hp.le hz q).mono (by linarith [up b']) le_rfl)
      (fun hp => by rw [max_eq_right (not_lt.1 hp), zero_mul, zero_div])
  have t4 : TermNear A (d + 8) (Real.sqrt (max p.alphaPen2 0) / zref * g.curvature)
      (max p.alphaPen2 0 * curvaturePenalty m n k y / zref ^ 2) l4 :=
    optional_term c8 (by positivity) q4
      (fun hp q => by
        obtain ⟨d', b', q⟩ := q
        rw [max_eq_left hp.le]
        exact (pen2_term hn hm H hg hp.le hz q).mono (by linarith [up b']) le_rfl)
      (fun hp => by rw [max_eq_right (not_lt.1 hp), zero_mul, zero_div])
  have t5 : TermNear A (d + 8) 0 (max p.betaReg 0 * ((θ.map fun x => x ^ 2).sum / θ.length)) l5 :=
    optional_term c8 le_rfl q5
      (fun hp q => by
        obtain ⟨d', b', q⟩ := q
        rw [max_eq_left hp.le]
        exact (reg_term hp.le q).mono (by linarith [up b']) le_rfl)
      (fun hp => by rw [max_eq_right (not_lt.1 hp), zero_mul])
  have sq0 : ∀ (i j : ℕ) (f : ℕ → ℕ → ℝ), 0 ≤ mean2 i j fun i j => f i j ^ 2 := fun i j f => mean2_nonneg _ _ _ fun _ _ => sq_nonneg _
  have p1 : 0 ≤ slopePenalty m n k y := sq0 _ _ _
  have p2 : 0 ≤ curvaturePenalty m n k y := sq0 _ _ _
  have p3 : 0 ≤ coherenceMisfit a b M D := by
    unfold coherenceMisfit
    exact div_nonneg (Finset.sum_nonneg fun c _ => mean2_nonneg _ _ _ fun _ _ => sq_nonneg _) (by norm_num)
  have p5 : (0 : ℝ) ≤ (θ.map fun x : ℝ => x ^ 2).sum / (θ.length : ℝ) :=
    div_nonneg (sum_nonneg_map _ _ fun _ _ => sq_nonneg _) (by positivity)
  have T := (termNear_five t1 t2 t3 t4 t5 (sq0 _ _ _) (by positivity) (by positivity) (by positivity) (by positivity)).root
  rw [show ((d:ℝ) + 8 + 4) = d + 12 by ring, zero_pow two_ne_zero, add_zero] at T
  exact T

/-- **C146** The loss of a fit without network and coherence data. -/
theorem C146_total_spectra (A : Fmt) (p : LossParams) {g : Spec.GridErrors} {m n : ℕ} (hm : 0 < m) (hn : 3 ≤ n)
    {k : ℕ → ℝ} (hk : Ascending n k) {zref : ℝ} (hz : 0 < zref) {y y' t : ℕ → ℕ → ℝ} (H : ∀ i < m, NearRow A g n k (y i) (y' i))
    (hg : g.step2 < g.h) (ht : ∀ i < m, ∀ j < n, t i j ≠ 0) (s : LossState) {L : ℝ} {d : ℕ}
    (h : A.LossSpectraOf p zref m n k y' t L d) :
    ∃ T : ℝ, (lossEval p ((List.range n).map k) zref ⟨table m n fun i j => fin (y i j), table m n fun i j => fin (t i j),
        .none, none⟩ s).1 = .ok (fin T) ∧ 0 ≤ L ∧
      abs (Real.sqrt L - Real.sqrt T) ≤ (Real.exp ((d + 9) / 2 * A.e) - 1) * Real.sqrt T +
        Real.exp ((d + 9) / 2 * A.e) * Real.sqrt ((g.a + A.e) ^ 2 +
          (Real.sqrt (max p.alphaPen1 0 / zref) * g.slope) ^ 2 + (Real.sqrt (max p.alphaPen2 0) / zref * g.curvature) ^ 2) := by
  refine ⟨_, C101_value_spectra p hm hn hk hz.ne' (fun i hi => (H i hi).ne) ht s, ?_⟩
  have a0 : 0 ≤ g.a := ((H 0 hm).near 0 (by omega)).nonneg
  have g1 : 0 ≤ g.slope := (abs_nonneg _).trans ((H 0 hm).slope_near (j := 0) (by omega))
  have g2 : 0 ≤ g.curvature := (abs_nonneg _).trans ((H 0 hm).curvature_near hg (j := 0) (by omega))
  obtain ⟨l1, l3, l4, ⟨d1, b1, q1⟩, q3, q4, rfl⟩ := h
  have up : ∀ {d' : ℕ}, d' ≤ d → (d' : ℝ) ≤ d := fun h => Nat.cast_le.2 h
  have c5 : (0:ℝ) ≤ d + 5 := by positivity
  have t1 := (mse_term a0 (fun i hi => (H i hi).ne) ht (fun i hi => (H i hi).near) q1).mono
    (show (d1 : ℝ) + 4 ≤ d + 5 by linarith [up b1]) le_rfl
  have t3 : TermNear A (d + 5) (Real.sqrt (max p.alphaPen1 0 / zref) * g.slope) (max p.alphaPen1 0 * slopePenalty m n k y / zref) l3 :=
    optional_term c5 (by positivity) q3
      (fun hp q => by
        obtain ⟨d', b', q⟩ := q
        rw [max_eq_left hp.le]
        exact (pen1_term (by omega) hm H hp.le hz q).mono (by linarith [up b']) le_rfl)
      (fun hp => by rw [max_eq_right (not_lt.1 hp), zero_mul, zero_div])
  have t4 : TermNear A (d + 5) (Real.sqrt (max p.alphaPen2 0) / zref * g.curvature)
      (max p.alphaPen2 0 * curvaturePenalty m n k y / zref ^ 2) l4 :=
    optional_term c5 (by positivity) q4
      (fun hp q => by
        obtain ⟨d', b', q⟩ := q
        rw [max_eq_left hp.le]
        exact (pen2_term hn hm H hg hp.le hz q).mono (by linarith [up b']) le_rfl)
      (fun hp => by rw [max_eq_right (not_lt.1 hp), zero_mul, zero_div])
  have sq0 : ∀ (i j : ℕ) (f : ℕ → ℕ → ℝ), 0 ≤ mean2 i j fun i j => f i j ^ 2 := fun i j f => mean2_nonneg _ _ _ fun _ _ => sq_nonneg _
  have p1 : 0 ≤ slopePenalty m n k y := sq0 _ _ _
  have p2 : 0 ≤ curvaturePenalty m n k y := sq0 _ _ _
  have z := termNear_zero A c5 le_rfl
  have T := (termNear_five t1 z t3 t4 z (sq0 _ _ _) le_rfl (by positivity) (by positivity) le_rfl).root
  rw [show ((d:ℝ) + 5 + 4) = d + 9 by ring, zero_pow two_ne_zero, add_zero, add_zero, add_zero, add_zero] at T
  exact T

/-- Sizes in single precision for spectra correct to a tenth of a percent, `|log y| ≤ 10`, `|log k| ≤ 10` and logarithmic steps of at
least `0.3`: every slope is correct to `0.009` and every curvature to `0.09`. -/
example : let g : Spec.GridErrors := ⟨1 / 2 ^ 22, 1 / 1000, 10, 10, 3 / 10⟩
    g.step1 < g.h ∧ g.step2 < g.h ∧ g.slope ≤ 0.009 ∧ g.curvature ≤ 0.09 := by
  simp only [Spec.GridErrors.step1, Spec.GridErrors.step2, Spec.GridErrors.slope, Spec.GridErrors.curvature, Spec.GridErrors.diff,
    Spec.GridErrors.middle, Spec.GridErrors.maxSlope, Spec.GridErrors.maxCurvature, rounded]
  norm_num

/-- A decaying spectrum on a logarithmic grid meets the hypotheses, in any format accurate to `1e-3`, with a relative error of one
percent. -/
example (A : Fmt) (hv : A.v ≤ 1 / 1000) :
    NearRow A ⟨A.v, Real.log 1.01, 2, 2, 1⟩ 3 (fun j => Real.exp j) (fun j => Real.exp (-j)) (fun j => 1.01 * Real.exp (-j)) where
  v := rfl
  pos := fun j _ => Real.exp_pos _
  logk := fun j hj => by
    rw [Real.log_exp, abs_of_nonneg (by positivity)]
    have : (j : ℝ) ≤ 2 := by exact_mod_cast (show j ≤ 2 by omega)
    exact this
  step := fun j _ => by simp [Real.log_exp]
  ne := fun j _ => (Real.exp_pos _).ne'
  logy := fun j hj => by
    rw [abs_of_pos (Real.exp_pos _), Real.log_exp, abs_neg, abs_of_nonneg (by positivity)]
    have : (j : ℝ) ≤ 2 := by exact_mod_cast (show j ≤ 2 by omega)
    exact this
  near := fun j _ => ⟨Real.log 1.01, (abs_of_nonneg (Real.log_nonneg (by norm_num))).le, by
    rw [Real.exp_log (by norm_num)]; ring⟩
  steps := by
    have := A.v0
    unfold Spec.GridErrors.step1 rounded
    simp only
    nlinarith

/-- Evaluations exist for every input: adding from the left, for instance. -/
example (A : Fmt) (k : ℕ → ℝ) (y : ℕ → ℕ → ℝ) : ∃ l d, A.Pen1Of 1 100 4 20 k y l d :=
  let ⟨s, hs⟩ := Summation.foldl (A := A) (grid 4 19 fun i j => A.sq (max (A.slopeOf k (y i) j) 0)).flatten
  ⟨_, _, s, hs, rfl⟩

end
end Verif
