import Verif.Model.Loss
import Verif.Model.Data

/-!
# Lemmas about sums of squares over `Fl`
-/

namespace Verif
open Fl

noncomputable section

namespace Fl

/-- Non-negative, `+inf`, or NaN: what a sum of squares can be. -/
def NN (x : Fl) : Prop := x = nan ∨ x = pinf ∨ ∃ r : ℝ, 0 ≤ r ∧ x = fin r

/-- Non-negative or `+inf` (and not NaN). -/
def Ge0 (x : Fl) : Prop := x = pinf ∨ ∃ r : ℝ, 0 ≤ r ∧ x = fin r

theorem NN.ge0 {x : Fl} (h : NN x) (hx : x ≠ nan) : Ge0 x := h.resolve_left hx

theorem Ge0.ne_nan {x : Fl} (h : Ge0 x) : x ≠ nan := by
  rcases h with rfl | ⟨r, -, rfl⟩ <;> simp

theorem Ge0.nn {x : Fl} (h : Ge0 x) : NN x := Or.inr h

theorem nn_sq (x : Fl) : NN (x * x) := by
  cases x with
  | nan => exact Or.inl (by simp)
  | pinf => exact Or.inr (Or.inl (by simp))
  | ninf => exact Or.inr (Or.inl (by simp))
  | fin r => exact Or.inr (Or.inr ⟨r * r, mul_self_nonneg r, rfl⟩)

theorem NN.add {x y : Fl} (hx : NN x) (hy : NN y) : NN (x + y) := by
  rcases hx with rfl | rfl | ⟨r, hr, rfl⟩ <;> rcases hy with rfl | rfl | ⟨t, ht, rfl⟩ <;> simp [NN]
  exact add_nonneg hr ht

theorem Ge0.add {x y : Fl} (hx : Ge0 x) (hy : Ge0 y) : Ge0 (x + y) := by
  rcases hx with rfl | ⟨r, hr, rfl⟩ <;> rcases hy with rfl | ⟨t, ht, rfl⟩ <;> simp [Ge0]
  exact add_nonneg hr ht

theorem ge0_zero : Ge0 (fin 0) := Or.inr ⟨0, le_rfl, rfl⟩

theorem nn_sum {l : List Fl} (h : ∀ x ∈ l, NN x) : NN l.sum := by
  induction l with
  | nil => exact ge0_zero.nn
  | cons a l ih =>
    rw [List.sum_cons]
    exact (h a (by simp)).add (ih fun x hx => h x (by simp [hx]))

theorem NN.div_fin {x : Fl} (hx : NN x) {y : ℝ} (hy : 0 ≤ y) : NN (x / fin y) := by
  rcases hx with rfl | rfl | ⟨r, hr, rfl⟩
  · exact Or.inl (by simp)
  · exact Or.inr (Or.inl (pinf_div_fin_pos hy))
  · rcases hy.eq_or_lt with h | h
    · rw [← h, fin_div_zero]
      rcases hr.eq_or_lt with h' | h'
      · rw [← h']; exact Or.inl (by simp)
      · rw [infMul_pos h']; exact Or.inr (Or.inl rfl)
    · rw [fin_div_fin _ h.ne']
      exact Or.inr (Or.inr ⟨_, by positivity, rfl⟩)

theorem NN.fin_mul {x : Fl} (hx : NN x) {c : ℝ} (hc : 0 < c) : NN (fin c * x) := by
  rcases hx with rfl | rfl | ⟨r, hr, rfl⟩
  · exact Or.inl (by simp)
  · exact Or.inr (Or.inl (by rw [fin_mul_pinf, infMul_pos hc]))
  · exact Or.inr (Or.inr ⟨c * r, by positivity, rfl⟩)

theorem nn_mean {l : List Fl} (h : ∀ x ∈ l, NN x) : NN (flMean l) :=
  (nn_sum h).div_fin (by positivity)

theorem sum_eq_nan_of_mem {l : List Fl} (h : nan ∈ l) : l.sum = nan := by
  induction l with
  | nil => simp at h
  | cons a l ih =>
    rw [List.sum_cons]
    rcases List.mem_cons.1 h with rfl | h
    · simp
    · rw [ih h]; simp

theorem mean_eq_nan_of_mem {l : List Fl} (h : nan ∈ l) : flMean l = nan := by
  unfold flMean; rw [sum_eq_nan_of_mem h]; simp

/-- Among non-negative values one infinity or NaN makes the sum non-finite. -/
theorem sum_not_fin {l : List Fl} (hl : ∀ x ∈ l, NN x) (h : ∃ x ∈ l, ¬ x.IsFin) : l.sum = nan ∨ l.sum = pinf := by
  induction l with
  | nil => obtain ⟨x, hx, -⟩ := h; simp at hx
  | cons a l ih =>
    rw [List.sum_cons]
    have ha := hl a (by simp)
    have hs : NN l.sum := nn_sum fun x hx => hl x (by simp [hx])
    obtain ⟨x, hx, hnf⟩ := h
    rcases List.mem_cons.1 hx with rfl | hx
    · rcases ha with rfl | rfl | ⟨r, -, rfl⟩
      · simp
      · rcases hs with h | h | ⟨t, -, h⟩ <;> rw [h] <;> simp
      · simp at hnf
    · rcases ih (fun x hx => hl x (by simp [hx])) ⟨x, hx, hnf⟩ with h | h <;> rw [h]
      · simp
      · rcases ha with rfl | rfl | ⟨r, -, rfl⟩ <;> simp

theorem mean_not_fin {l : List Fl} (hl : ∀ x ∈ l, NN x) (h : ∃ x ∈ l, ¬ x.IsFin) :
    flMean l = nan ∨ flMean l = pinf := by
  unfold flMean
  rcases sum_not_fin hl h with h | h <;> rw [h]
  · simp
  · right; exact pinf_div_fin_pos (by positivity)

theorem mean_map_fin {ι : Type*} (l : List ι) (f : ι → ℝ) (h : l ≠ []) :
    flMean (l.map fun i => fin (f i)) = fin ((l.map f).sum / l.length) := by
  unfold flMean
  rw [sum_map_fin, List.length_map, fin_div_fin]
  have := List.length_pos_iff.2 h
  positivity

end Fl

theorem raiseIfNan_ok {x y : Fl} : raiseIfNan x = .ok y ↔ x = y ∧ y ≠ nan := by
  unfold raiseIfNan
  by_cases h : x.IsNan
  · rw [if_pos h, isNan_iff.1 h]
    constructor
    · intro h; simp at h
    · rintro ⟨rfl, h⟩; simp at h
  · rw [if_neg h]
    rw [isNan_iff] at h
    constructor
    · intro h'; injection h' with h'; subst h'; exact ⟨rfl, h⟩
    · rintro ⟨rfl, -⟩; rfl

theorem raiseIfNan_nan : raiseIfNan nan = .error .valueError := by simp [raiseIfNan]
theorem raiseIfNan_fin (x : ℝ) : raiseIfNan (fin x) = .ok (fin x) := by simp [raiseIfNan]

theorem raiseIfNan_ge0 {x y : Fl} (hx : NN x) (h : raiseIfNan x = .ok y) : Ge0 y := by
  obtain ⟨rfl, h⟩ := raiseIfNan_ok.1 h
  exact hx.ge0 h

/-- Entries of a zipped tensor. -/
theorem mem_zipFlat {f : Fl → Fl → Fl} {a b : List (List Fl)} {x : Fl} (h : x ∈ zipFlat f a b) :
    ∃ u v, x = f u v := by
  unfold zipFlat at h
  obtain ⟨row, hrow, hx⟩ := List.mem_flatten.1 h
  obtain ⟨i, hi, rfl⟩ := List.getElem_of_mem hrow
  obtain ⟨j, hj, rfl⟩ := List.getElem_of_mem hx
  simp only [List.getElem_zipWith]
  exact ⟨_, _, rfl⟩

theorem getElem_mem_zipFlat (f : Fl → Fl → Fl) {a b : List (List Fl)} {i j : ℕ} (hi : i < a.length)
    (hi' : i < b.length) (hj : j < a[i].length) (hj' : j < b[i].length) : f a[i][j] b[i][j] ∈ zipFlat f a b := by
  unfold zipFlat
  refine List.mem_flatten.2 ⟨List.zipWith f a[i] b[i], ?_, ?_⟩
  · rw [List.mem_iff_getElem]
    exact ⟨i, by simp; omega, by simp⟩
  · rw [List.mem_iff_getElem]
    exact ⟨j, by simp; omega, by simp⟩

theorem nn_zipFlat_sq (g : Fl → Fl → Fl) (a b : List (List Fl)) : ∀ x ∈ zipFlat (fun m t => g m t * g m t) a b, NN x := by
  intro x hx
  obtain ⟨u, v, rfl⟩ := mem_zipFlat hx
  exact nn_sq _

theorem nn_mse (model target : List (List Fl)) :
    NN (flMean (zipFlat (fun m t => Fl.log (Fl.abs (m / t)) * Fl.log (Fl.abs (m / t))) model target)) :=
  nn_mean (nn_zipFlat_sq _ _ _)

theorem nn_msd (a b : List (List Fl)) : NN (msd a b) := nn_mean (nn_zipFlat_sq (fun m d => m - d) _ _)

theorem nn_reluSq_flat (f : List Fl → List Fl) (y : List (List Fl)) :
    NN (flMean ((y.map fun row => (f row).map reluSq).flatten)) := by
  refine nn_mean fun x hx => ?_
  obtain ⟨row, hrow, hx⟩ := List.mem_flatten.1 hx
  obtain ⟨r, -, rfl⟩ := List.mem_map.1 hrow
  obtain ⟨z, -, rfl⟩ := List.mem_map.1 hx
  exact nn_sq _

theorem mseTerm_ge0 {m t : List (List Fl)} {x : Fl} (h : mseTerm m t = .ok x) : Ge0 x := by
  unfold mseTerm at h
  split_ifs at h
  exact raiseIfNan_ge0 (nn_mse m t) h

theorem pen1_ge0 {p : LossParams} {k1s : List ℝ} {zref : ℝ} {y : List (List Fl)} {x : Fl} (hp : 0 < p.alphaPen1)
    (hz : 0 ≤ zref) (h : pen1 p k1s zref y = .ok x) : Ge0 x := by
  unfold pen1 at h
  split_ifs at h
  exact raiseIfNan_ge0 (((nn_reluSq_flat _ y).fin_mul hp).div_fin hz) h

theorem pen2_ge0 {p : LossParams} {k1s : List ℝ} {zref : ℝ} {y : List (List Fl)} {x : Fl} (hp : 0 < p.alphaPen2)
    (h : pen2 p k1s zref y = .ok x) : Ge0 x := by
  unfold pen2 at h
  split_ifs at h
  exact raiseIfNan_ge0 (((nn_reluSq_flat _ y).fin_mul hp).div_fin (by positivity)) h

theorem reg_ge0 {p : LossParams} {θ : Theta} {x : Fl} (hp : 0 < p.betaReg) (h : regularization p θ = .ok x) :
    Ge0 x := by
  cases θ with
  | none => simp [regularization] at h
  | scalar => simp [regularization] at h
  | vec θ =>
    refine raiseIfNan_ge0 ((nn_mean ?_).fin_mul hp) h
    intro x hx
    obtain ⟨z, -, rfl⟩ := List.mem_map.1 hx
    exact nn_sq _

theorem coh_ge0 {p : LossParams} {c : CohData} {x : Fl} (hp : 0 < p.gammaCoherence)
    (h : coherenceLoss p c = .ok x) : Ge0 x := by
  unfold coherenceLoss at h
  split_ifs at h
  exact raiseIfNan_ge0 (((((nn_msd _ _).add (nn_msd _ _)).add (nn_msd _ _)).div_fin (by norm_num)).fin_mul hp) h

end
end Verif
