import Verif.Lemmas.Loss
import Mathlib.Tactic.FieldSimp
import Mathlib.Tactic.Linarith
import Mathlib.Tactic.NormNum
import Mathlib.Tactic.Positivity
import Mathlib.Algebra.Order.BigOperators.Group.List

/-!
# Loss function: C30 - C33 and the loss side of C24 and C29
-/

namespace Verif
open Fl

noncomputable section

/-- A real array as a tensor of finite floats. -/
def tens (a : List (List ℝ)) : List (List Fl) := a.map fun r => r.map fin

/-- Entrywise pairs of two arrays. -/
def pairs {α : Type} (a b : List (List α)) : List (α × α) := (List.zipWith List.zip a b).flatten

theorem zipFlat_tens (f : Fl → Fl → Fl) (a b : List (List ℝ)) :
    zipFlat f (tens a) (tens b) = (pairs a b).map fun q => f (fin q.1) (fin q.2) := by
  unfold zipFlat pairs tens
  rw [List.map_flatten, List.zipWith_map, List.map_zipWith]
  congr 1
  congr 1
  funext r s
  rw [List.zipWith_map, List.zip, List.map_zipWith]

theorem sameShape_tens {a b : List (List ℝ)} (h : a.map List.length = b.map List.length) :
    sameShape (tens a) (tens b) := by
  unfold sameShape tens
  simpa [Function.comp_def] using h

theorem sum_nonneg_map {ι : Type*} (l : List ι) (f : ι → ℝ) (h : ∀ i ∈ l, 0 ≤ f i) : 0 ≤ (l.map f).sum := by
  apply List.sum_nonneg
  intro x hx
  obtain ⟨i, hi, rfl⟩ := List.mem_map.1 hx
  exact h i hi

theorem sum_zero_iff {ι : Type*} (l : List ι) (f : ι → ℝ) (h : ∀ i ∈ l, 0 ≤ f i) :
    (l.map f).sum = 0 ↔ ∀ i ∈ l, f i = 0 := by
  induction l with
  | nil => simp
  | cons a l ih =>
    have ha := h a (by simp)
    have hl := sum_nonneg_map l f fun i hi => h i (by simp [hi])
    have := ih fun i hi => h i (by simp [hi])
    rw [List.map_cons, List.sum_cons, add_eq_zero_iff_of_nonneg ha hl, this]
    simp

/-- Non-zero entries. -/
def NoZero (a : List (List ℝ)) : Prop := ∀ row ∈ a, ∀ x ∈ row, x ≠ 0

theorem mem_pairs {a b : List (List ℝ)} {q : ℝ × ℝ} (h : q ∈ pairs a b) :
    (∃ r ∈ a, q.1 ∈ r) ∧ ∃ r ∈ b, q.2 ∈ r := by
  unfold pairs at h
  obtain ⟨row, hrow, hq⟩ := List.mem_flatten.1 h
  obtain ⟨i, hi, rfl⟩ := List.getElem_of_mem hrow
  rw [List.getElem_zipWith] at hq
  have := List.of_mem_zip hq
  exact ⟨⟨_, List.getElem_mem _, this.1⟩, ⟨_, List.getElem_mem _, this.2⟩⟩

/-- **C30** Value of the misfit: the mean over *all* entries of the squared difference of the logarithms of the
magnitudes.  (The documentation divides by the number of frequencies only; the code also divides by the number of
components.) -/
theorem C30_value {m t : List (List ℝ)} (hs : m.map List.length = t.map List.length) (hm : NoZero m) (ht : NoZero t)
    (hne : pairs m t ≠ []) :
    mseTerm (tens m) (tens t) = .ok (fin (((pairs m t).map fun q => (Real.log |q.1| - Real.log |q.2|) ^ 2).sum /
      (pairs m t).length)) := by
  unfold mseTerm
  rw [if_pos (sameShape_tens hs), zipFlat_tens]
  have : (pairs m t).map (fun q => Fl.log (Fl.abs (fin q.1 / fin q.2)) * Fl.log (Fl.abs (fin q.1 / fin q.2))) =
      (pairs m t).map fun q => fin ((Real.log |q.1| - Real.log |q.2|) ^ 2) := by
    apply List.map_congr_left
    intro q hq
    obtain ⟨⟨r1, h1, h1'⟩, ⟨r2, h2, h2'⟩⟩ := mem_pairs hq
    have n1 := hm r1 h1 _ h1'
    have n2 := ht r2 h2 _ h2'
    rw [fin_div_fin _ n2, abs_fin, log_fin (abs_pos.2 (div_ne_zero n1 n2)), fin_mul_fin, abs_div,
      Real.log_div (abs_ne_zero.2 n1) (abs_ne_zero.2 n2)]
    congr 1
    ring
  rw [this, mean_map_fin _ _ hne, raiseIfNan_fin]

/-- **C30** The misfit is non-negative and zero exactly when all magnitudes agree. -/
theorem C30_distance {m t : List (List ℝ)} (hs : m.map List.length = t.map List.length) (hm : NoZero m)
    (ht : NoZero t) (hne : pairs m t ≠ []) :
    ∃ v : ℝ, mseTerm (tens m) (tens t) = .ok (fin v) ∧ 0 ≤ v ∧ (v = 0 ↔ ∀ q ∈ pairs m t, |q.1| = |q.2|) := by
  refine ⟨_, C30_value hs hm ht hne, ?_, ?_⟩
  · exact div_nonneg (sum_nonneg_map _ _ fun _ _ => sq_nonneg _) (by positivity)
  · have hl : ((pairs m t).length : ℝ) ≠ 0 := by
      have := List.length_pos_iff.2 hne
      positivity
    rw [div_eq_zero_iff, or_iff_left hl, sum_zero_iff _ _ fun _ _ => sq_nonneg _]
    refine forall₂_congr fun q hq => ?_
    obtain ⟨⟨r1, h1, h1'⟩, ⟨r2, h2, h2'⟩⟩ := mem_pairs hq
    have n1 := abs_pos.2 (hm r1 h1 _ h1')
    have n2 := abs_pos.2 (ht r2 h2 _ h2')
    rw [pow_eq_zero_iff two_ne_zero, sub_eq_zero]
    exact ⟨fun h => Real.log_injOn_pos n1 n2 h, fun h => by rw [h]⟩

theorem pairs_swap (a b : List (List ℝ)) : pairs b a = (pairs a b).map Prod.swap := by
  unfold pairs
  rw [List.map_flatten, List.map_zipWith, List.zipWith_comm]
  congr 1
  congr 1
  funext r s
  rw [List.zip_swap]

/-- **C30** Symmetric in model and target. -/
theorem C30_symmetric {m t : List (List ℝ)} (hs : m.map List.length = t.map List.length) (hm : NoZero m)
    (ht : NoZero t) (hne : pairs m t ≠ []) : mseTerm (tens m) (tens t) = mseTerm (tens t) (tens m) := by
  rw [C30_value hs hm ht hne, C30_value hs.symm ht hm (by rw [pairs_swap]; simpa using hne), pairs_swap, List.map_map,
    List.length_map]
  congr 4
  apply List.map_congr_left
  intro q _
  simp only [Function.comp_apply, Prod.fst_swap, Prod.snd_swap]
  ring

/-- **C30** Signs do not matter: replacing every entry of the model by its magnitude changes nothing (any entries,
zeros and special values included). -/
theorem C30_signs (m t : List (List Fl)) : mseTerm (m.map fun r => r.map Fl.abs) t = mseTerm m t := by
  have habs : ∀ a b : Fl, Fl.abs (Fl.abs a / b) = Fl.abs (a / b) := by
    intro a b
    rcases a with _ | _ | _ | a <;> rcases b with _ | _ | _ | b
    all_goals try rfl
    · show Fl.abs (pinf / fin b) = Fl.abs (ninf / fin b)
      rcases le_or_gt 0 b with h | h
      · rw [pinf_div_fin_pos h, ninf_div_fin_pos h]; rfl
      · show Fl.abs (if 0 ≤ b then pinf else ninf) = Fl.abs (if 0 ≤ b then ninf else pinf)
        rw [if_neg (not_le.2 h), if_neg (not_le.2 h)]; rfl
    · by_cases hb : b = 0
      · subst hb
        rw [abs_fin, fin_div_zero, fin_div_zero]
        unfold infMul
        rcases lt_trichotomy a 0 with h | h | h
        · rw [if_neg (abs_ne_zero.2 h.ne), if_pos (abs_pos.2 h.ne), if_neg h.ne, if_neg h.not_gt]; rfl
        · subst h; simp
        · rw [if_neg (abs_ne_zero.2 h.ne'), if_pos (abs_pos.2 h.ne'), if_neg h.ne', if_pos h]
      · rw [abs_fin, fin_div_fin _ hb, fin_div_fin _ hb, abs_fin, abs_fin, abs_div, abs_div, abs_abs]
  unfold mseTerm sameShape zipFlat
  rw [List.map_map]
  have h1 : (List.length ∘ fun r : List Fl => r.map Fl.abs) = List.length := by funext r; simp
  rw [h1, List.zipWith_map_left]
  simp only [List.zipWith_map_left, habs]
  split_ifs <;> rfl

/-- An empty comparison raises. -/
theorem C30_empty : mseTerm [] [] = .error .valueError := by
  unfold mseTerm
  rw [if_pos (show sameShape [] [] from rfl)]
  have : flMean (zipFlat (fun m t => Fl.log (Fl.abs (m / t)) * Fl.log (Fl.abs (m / t))) [] []) = nan := by
    simp [zipFlat, flMean, zero_def, fin_div_zero]
  rw [this, raiseIfNan_nan]

example : NoZero [[1, -2], [3, 4]] ∧ NoZero [[1, 2], [-3, 5]] ∧ pairs [[1, -2], [3, (4:ℝ)]] [[1, 2], [-3, 5]] ≠ [] ∧
    [[1, -2], [3, (4:ℝ)]].map List.length = [[1, 2], [-3, (5:ℝ)]].map List.length := by
  refine ⟨by simp [NoZero], by simp [NoZero], by simp [pairs], rfl⟩

/-! ### Penalties -/

theorem flDiff_length (l : List Fl) : (flDiff l).length = l.length - 1 := by
  induction l with
  | nil => rfl
  | cons a l ih =>
    cases l with
    | nil => rfl
    | cons b l => rw [flDiff]; simp [ih]

theorem flDiff_get (l : List Fl) (i : ℕ) (h : i + 1 < l.length) :
    (flDiff l)[i]'(by rw [flDiff_length]; omega) = l[i + 1] - l[i] := by
  induction l generalizing i with
  | nil => simp at h
  | cons a l ih =>
    cases l with
    | nil => simp at h
    | cons b l =>
      cases i with
      | zero => simp [flDiff]
      | succ i =>
        have := ih i (by simpa using h)
        simpa [flDiff] using this

theorem midpoints_length (l : List Fl) : (midpoints l).length = l.length - 1 := by
  induction l with
  | nil => rfl
  | cons a l ih =>
    cases l with
    | nil => rfl
    | cons b l => rw [midpoints]; simp [ih]

theorem midpoints_get (l : List Fl) (i : ℕ) (h : i + 1 < l.length) :
    (midpoints l)[i]'(by rw [midpoints_length]; omega) = fin 0.5 * (l[i] + l[i + 1]) := by
  induction l generalizing i with
  | nil => simp at h
  | cons a l ih =>
    cases l with
    | nil => simp at h
    | cons b l =>
      cases i with
      | zero => simp [midpoints]
      | succ i =>
        have := ih i (by simpa using h)
        simpa [midpoints] using this

/-- Positive, strictly increasing wavenumbers. -/
def GoodGrid (k1s : List ℝ) : Prop := (∀ k ∈ k1s, 0 < k) ∧ k1s.Pairwise (· < ·)

theorem GoodGrid.log_lt {k1s : List ℝ} (hk : GoodGrid k1s) {i j : ℕ} (hij : i < j) (hj : j < k1s.length) :
    Real.log (k1s[i]'(by omega)) < Real.log k1s[j] :=
  Real.log_lt_log (hk.1 _ (List.getElem_mem _)) (List.pairwise_iff_getElem.1 hk.2 i j (by omega) hj hij)

/-- Logarithmic slope between two sample points. -/
def slope (k1s row : List ℝ) (i j : ℕ) (hi : i < k1s.length) (hj : j < k1s.length) (h : row.length = k1s.length) : ℝ :=
  (Real.log |row[j]| - Real.log |row[i]|) / (Real.log k1s[j] - Real.log k1s[i])

theorem h1_get {k1s : List ℝ} (hk : GoodGrid k1s) (i : ℕ) (hi : i + 1 < k1s.length) :
    (h1Of k1s)[i]'(by simp [h1Of, flDiff_length, logK1]; omega) =
      fin (Real.log k1s[i + 1] - Real.log k1s[i]) := by
  unfold h1Of
  rw [flDiff_get _ _ (by simpa [logK1] using hi)]
  unfold logK1
  rw [List.getElem_map, List.getElem_map, log_fin (hk.1 _ (List.getElem_mem _)),
    log_fin (hk.1 _ (List.getElem_mem _)), fin_sub_fin]

theorem h2_get {k1s : List ℝ} (hk : GoodGrid k1s) (i : ℕ) (hi : i + 2 < k1s.length) :
    (h2Of k1s)[i]'(by simp [h2Of, flDiff_length, midpoints_length, logK1]; omega) =
      fin ((Real.log k1s[i + 2] - Real.log k1s[i]) / 2) := by
  unfold h2Of
  rw [flDiff_get _ _ (by simp [midpoints_length, logK1]; omega), midpoints_get _ _ (by simpa [logK1] using hi),
    midpoints_get _ _ (by simp [logK1]; omega)]
  unfold logK1
  simp only [List.getElem_map, log_fin (hk.1 _ (List.getElem_mem _)), fin_add_fin, fin_mul_fin, fin_sub_fin]
  congr 1
  norm_num
  ring

theorem d1_length (k1s row : List ℝ) (h : row.length = k1s.length) :
    (d1logy k1s (row.map fin)).length = k1s.length - 1 := by
  simp [d1logy, flDiff_length, logAbs, h1Of, logK1, h]

theorem d1_get {k1s row : List ℝ} (hk : GoodGrid k1s) (h : row.length = k1s.length) (h0 : ∀ x ∈ row, x ≠ 0) (i : ℕ)
    (hi : i + 1 < k1s.length) :
    (d1logy k1s (row.map fin))[i]'(by rw [d1_length _ _ h]; omega) =
      fin (slope k1s row i (i + 1) (by omega) hi h) := by
  have hlt := hk.log_lt (Nat.lt_succ_self i) hi
  unfold d1logy
  rw [List.getElem_zipWith, h1_get hk i hi, flDiff_get _ _ (by simp [logAbs, h]; omega)]
  unfold logAbs
  simp only [List.getElem_map, abs_fin, log_fin (abs_pos.2 (h0 _ (List.getElem_mem _))), fin_sub_fin]
  rw [fin_div_fin]
  · rfl
  · exact sub_ne_zero.2 hlt.ne'

theorem d2_length (k1s row : List ℝ) (h : row.length = k1s.length) :
    (d2logy k1s (row.map fin)).length = k1s.length - 2 := by
  simp [d2logy, flDiff_length, d1_length _ _ h, h2Of, midpoints_length, logK1]
  omega

theorem d2_get {k1s row : List ℝ} (hk : GoodGrid k1s) (h : row.length = k1s.length) (h0 : ∀ x ∈ row, x ≠ 0) (i : ℕ)
    (hi : i + 2 < k1s.length) :
    (d2logy k1s (row.map fin))[i]'(by rw [d2_length _ _ h]; omega) =
      fin ((slope k1s row (i + 1) (i + 2) (by omega) hi h - slope k1s row i (i + 1) (by omega) (by omega) h) /
        ((Real.log k1s[i + 2] - Real.log k1s[i]) / 2)) := by
  have hlt := hk.log_lt (show i < i + 2 by omega) hi
  unfold d2logy
  rw [List.getElem_zipWith, h2_get hk i hi, flDiff_get _ _ (by rw [d1_length _ _ h]; omega),
    d1_get hk h h0 (i + 1) hi, d1_get hk h h0 i (by omega), fin_sub_fin, fin_div_fin]
  have : 0 < Real.log k1s[i + 2] - Real.log k1s[i] := sub_pos.2 hlt
  positivity

/-- A flattened tensor of finite slopes: the mean of the squared positive parts. -/
theorem mean_reluSq {y : List (List ℝ)} (d : List Fl → List Fl) (hd : ∀ row ∈ y, ∃ l : List ℝ, d (row.map fin) = l.map fin)
    (hne : ((tens y).map fun row => (d row).map reluSq).flatten ≠ []) :
    ∃ v : ℝ, 0 ≤ v ∧ flMean (((tens y).map fun row => (d row).map reluSq).flatten) = fin v ∧
      (v = 0 ↔ ∀ row ∈ y, ∀ x : ℝ, fin x ∈ d (row.map fin) → x ≤ 0) := by
  have hfl : ∃ l : List ℝ, ((tens y).map fun row => (d row)).flatten = l.map fin := by
    clear hne
    unfold tens
    rw [List.map_map]
    induction y with
    | nil => exact ⟨[], rfl⟩
    | cons r y ih =>
      obtain ⟨l, hl⟩ := hd r (by simp)
      obtain ⟨l', hl'⟩ := ih fun row hrow => hd row (by simp [hrow])
      refine ⟨l ++ l', ?_⟩
      rw [List.map_cons, List.flatten_cons, hl', List.map_append]
      simp [hl]
  obtain ⟨l, hl⟩ := hfl
  have e : ((tens y).map fun row => (d row).map reluSq).flatten = l.map fun x => fin (max x 0 * max x 0) := by
    have : ((tens y).map fun row => (d row).map reluSq).flatten = (((tens y).map fun row => d row).flatten).map reluSq := by
      rw [List.map_flatten, List.map_map]; rfl
    rw [this, hl, List.map_map]
    rfl
  rw [e] at hne ⊢
  have hl0 : l ≠ [] := by simpa using hne
  have hpos : (0:ℝ) < l.length := by
    have := List.length_pos_iff.2 hl0
    positivity
  refine ⟨_, ?_, mean_map_fin _ _ hl0, ?_⟩
  · exact div_nonneg (sum_nonneg_map _ _ fun _ _ => mul_self_nonneg _) hpos.le
  · rw [div_eq_zero_iff, or_iff_left hpos.ne', sum_zero_iff _ _ fun _ _ => mul_self_nonneg _]
    have hmem : ∀ x : ℝ, x ∈ l ↔ ∃ row ∈ y, fin x ∈ d (row.map fin) := by
      intro x
      have : x ∈ l ↔ fin x ∈ l.map fin := by
        rw [List.mem_map]
        exact ⟨fun h => ⟨x, h, rfl⟩, fun ⟨z, hz, h⟩ => by rw [fin_inj] at h; exact h ▸ hz⟩
      rw [this, ← hl, List.mem_flatten]
      constructor
      · rintro ⟨r, hr, hx⟩
        obtain ⟨r', hr', rfl⟩ := List.mem_map.1 hr
        obtain ⟨row, hrow, rfl⟩ := List.mem_map.1 hr'
        exact ⟨row, hrow, hx⟩
      · rintro ⟨row, hrow, hx⟩
        exact ⟨_, List.mem_map.2 ⟨_, List.mem_map.2 ⟨row, hrow, rfl⟩, rfl⟩, hx⟩
    constructor
    · intro h row hrow x hx
      have := h x ((hmem x).2 ⟨row, hrow, hx⟩)
      have := mul_self_eq_zero.1 this
      exact max_eq_right_iff.1 this
    · intro h x hx
      obtain ⟨row, hrow, hx⟩ := (hmem x).1 hx
      rw [max_eq_right (h row hrow x hx), mul_zero]

theorem exists_fin_list {l : List Fl} {n : ℕ} (hl : l.length = n) (f : (i : ℕ) → i < n → ℝ)
    (h : ∀ i (hi : i < n), l[i]'(by omega) = fin (f i hi)) : ∃ l' : List ℝ, l = l'.map fin := by
  refine ⟨List.ofFn fun i : Fin n => f i i.2, ?_⟩
  apply List.ext_getElem
  · simp [hl]
  · intro i h1 h2
    simp [h i (by omega)]

/-- A log-log non-increasing component: its magnitude never grows along the grid. -/
def Spec.MagnitudeNonincreasing (row : List ℝ) : Prop := (row.map fun x => |x|).Pairwise (· ≥ ·)

/-- A log-log concave component: for any three sample points, the slope on the right is at most the slope on the
left. -/
def Spec.LogConcave (k1s row : List ℝ) : Prop :=
  ∀ (i j l : ℕ) (hl : l < k1s.length) (h : row.length = k1s.length) (hij : i < j) (hjl : j < l),
    slope k1s row j l (by omega) hl h ≤ slope k1s row i j (by omega) (by omega) h

/-- **C31** First-order penalty: finite, non-negative, and zero exactly when every component's magnitude is
non-increasing. -/
theorem C31_first_order (p : LossParams) (hp : 0 < p.alphaPen1) {zref : ℝ} (hz : 0 < zref) {k1s : List ℝ}
    (hk : GoodGrid k1s) (h2 : 2 ≤ k1s.length) {y : List (List ℝ)} (hy : y ≠ []) (h0 : NoZero y)
    (hlen : ∀ row ∈ y, row.length = k1s.length) :
    ∃ v : ℝ, pen1 p k1s zref (tens y) = .ok (fin v) ∧ 0 ≤ v ∧
      (v = 0 ↔ ∀ row ∈ y, Spec.MagnitudeNonincreasing row) := by
  have hrows : ∀ row ∈ tens y, row.length = k1s.length := by
    intro row hrow
    obtain ⟨r, hr, rfl⟩ := List.mem_map.1 hrow
    simpa using hlen r hr
  have hd : ∀ row ∈ y, ∃ l : List ℝ, d1logy k1s (row.map fin) = l.map fin := fun row hrow =>
    exists_fin_list (d1_length _ _ (hlen row hrow)) (fun i hi => slope k1s row i (i + 1) (by omega) (by omega) (hlen row hrow))
      fun i hi => d1_get hk (hlen row hrow) (h0 row hrow) i (by omega)
  have hne : ((tens y).map fun row => (d1logy k1s row).map reluSq).flatten ≠ [] := by
    obtain ⟨r, hr⟩ := List.exists_mem_of_ne_nil y hy
    intro hcon
    have := List.flatten_eq_nil_iff.1 hcon _ (List.mem_map.2 ⟨_, List.mem_map.2 ⟨r, hr, rfl⟩, rfl⟩)
    have hl := congrArg List.length this
    rw [List.length_map, d1_length _ _ (hlen r hr)] at hl
    simp at hl
    omega
  obtain ⟨v, hv, hmean, hzero⟩ := mean_reluSq (d1logy k1s) hd hne
  refine ⟨p.alphaPen1 * v / zref, ?_, by positivity, ?_⟩
  · unfold pen1
    rw [if_pos hrows, hmean, fin_mul_fin, fin_div_fin _ hz.ne', raiseIfNan_fin]
  · rw [div_eq_zero_iff, or_iff_left hz.ne', mul_eq_zero, or_iff_right hp.ne', hzero]
    refine forall₂_congr fun row hrow => ?_
    have hl := hlen row hrow
    have hn := h0 row hrow
    have key : ∀ i (hi : i + 1 < k1s.length), slope k1s row i (i + 1) (by omega) hi hl ≤ 0 ↔ |row[i + 1]| ≤ |row[i]| := by
      intro i hi
      have hlt := sub_pos.2 (hk.log_lt (Nat.lt_succ_self i) hi)
      unfold slope
      rw [div_le_iff₀ hlt, zero_mul, sub_nonpos,
        Real.log_le_log_iff (abs_pos.2 (hn _ (List.getElem_mem _))) (abs_pos.2 (hn _ (List.getElem_mem _)))]
    unfold Spec.MagnitudeNonincreasing
    rw [← List.isChain_iff_pairwise, List.isChain_iff_getElem]
    constructor
    · intro h i hi
      have hi' : i + 1 < k1s.length := by simpa [hl] using hi
      have := h _ (by rw [← d1_get hk hl hn i hi']; exact List.getElem_mem _)
      simpa using (key i hi').1 this
    · intro h x hx
      obtain ⟨i, hi, hxi⟩ := List.getElem_of_mem hx
      have hi' : i + 1 < k1s.length := by rw [d1_length _ _ hl] at hi; omega
      rw [d1_get hk hl hn i hi', fin_inj] at hxi
      rw [← hxi, key i hi']
      have h' := h i (by simpa [hl] using hi')
      simp only [List.getElem_map, ge_iff_le] at h'
      exact h'

/-- Local concavity implies the three-point condition. -/
theorem concave_of_local {n : ℕ} {u v : ℕ → ℝ} (hu : ∀ i, i + 1 < n → u i < u (i + 1))
    (h : ∀ i, i + 2 < n → (v (i + 2) - v (i + 1)) / (u (i + 2) - u (i + 1)) ≤ (v (i + 1) - v i) / (u (i + 1) - u i))
    {i j l : ℕ} (hij : i < j) (hjl : j < l) (hl : l < n) :
    (v l - v j) / (u l - u j) ≤ (v j - v i) / (u j - u i) := by
  have umono : ∀ a b, a < b → b < n → u a < u b := by
    intro a b hab
    induction b, hab using Nat.le_induction with
    | base => exact hu a
    | succ b hb ih => intro hn; exact (ih (by omega)).trans (hu b hn)
  -- left part: chord slope is at least the last local slope
  have left : ∀ a b, a < b → (hb : b < n) →
      (v b - v (b - 1)) / (u b - u (b - 1)) * (u b - u a) ≤ v b - v a := by
    intro a b hab
    induction b, hab using Nat.le_induction with
    | base =>
      intro hb
      have := sub_pos.2 (hu a hb)
      simp only [Nat.succ_eq_add_one, Nat.add_sub_cancel]
      rw [div_mul_cancel₀ _ this.ne']
    | succ b hb ih =>
      intro hn
      have hb' : a < b := hb
      have h1 := ih (by omega)
      have h2 := h (b - 1) (by omega)
      have e1 : b - 1 + 1 = b := by omega
      have e2 : b - 1 + 2 = b + 1 := by omega
      rw [e1, e2] at h2
      simp only [Nat.add_sub_cancel]
      have hd := sub_pos.2 (hu b hn)
      have hab := sub_pos.2 (umono a b hb' (by omega))
      have h3 := mul_le_mul_of_nonneg_right h2 hab.le
      have h4 : (v (b + 1) - v b) / (u (b + 1) - u b) * (u (b + 1) - u b) = v (b + 1) - v b :=
        div_mul_cancel₀ _ hd.ne'
      have : u (b + 1) - u a = (u (b + 1) - u b) + (u b - u a) := by ring
      rw [this, mul_add, h4]
      linarith
  have right : ∀ a b, a < b → (hb : b < n) →
      v b - v a ≤ (v (a + 1) - v a) / (u (a + 1) - u a) * (u b - u a) ∧
      (v b - v (b - 1)) / (u b - u (b - 1)) ≤ (v (a + 1) - v a) / (u (a + 1) - u a) := by
    intro a b hab
    induction b, hab using Nat.le_induction with
    | base =>
      intro hb
      have := sub_pos.2 (hu a hb)
      simp only [Nat.succ_eq_add_one, Nat.add_sub_cancel]
      rw [div_mul_cancel₀ _ this.ne']
      exact ⟨le_rfl, le_rfl⟩
    | succ b hb ih =>
      intro hn
      have hb' : a < b := hb
      obtain ⟨h1, h1'⟩ := ih (by omega)
      have h2 := h (b - 1) (by omega)
      have e1 : b - 1 + 1 = b := by omega
      have e2 : b - 1 + 2 = b + 1 := by omega
      rw [e1, e2] at h2
      simp only [Nat.add_sub_cancel]
      have hd := sub_pos.2 (hu b hn)
      refine ⟨?_, h2.trans h1'⟩
      have h3 := mul_le_mul_of_nonneg_right (h2.trans h1') hd.le
      rw [div_mul_cancel₀ _ hd.ne'] at h3
      have : u (b + 1) - u a = (u (b + 1) - u b) + (u b - u a) := by ring
      rw [this, mul_add]
      linarith
  have hij' := sub_pos.2 (umono i j hij (by omega))
  have hjl' := sub_pos.2 (umono j l hjl hl)
  have h1 := left i j hij (by omega)
  have h2 := (right j l hjl hl).1
  have h3 := h (j - 1) (by omega)
  have e1 : j - 1 + 1 = j := by omega
  have e2 : j - 1 + 2 = j + 1 := by omega
  rw [e1, e2] at h3
  rw [← div_le_iff₀ hjl'] at h2
  rw [← le_div_iff₀ hij'] at h1
  exact h2.trans (h3.trans h1)

/-- **C31** Second-order penalty: finite, non-negative, and zero exactly when every component is log-log concave. -/
theorem C31_second_order (p : LossParams) (hp : 0 < p.alphaPen2) {zref : ℝ} (hz : zref ≠ 0) {k1s : List ℝ}
    (hk : GoodGrid k1s) (h3 : 3 ≤ k1s.length) {y : List (List ℝ)} (hy : y ≠ []) (h0 : NoZero y)
    (hlen : ∀ row ∈ y, row.length = k1s.length) :
    ∃ v : ℝ, pen2 p k1s zref (tens y) = .ok (fin v) ∧ 0 ≤ v ∧ (v = 0 ↔ ∀ row ∈ y, Spec.LogConcave k1s row) := by
  have hrows : ∀ row ∈ tens y, row.length = k1s.length := by
    intro row hrow
    obtain ⟨r, hr, rfl⟩ := List.mem_map.1 hrow
    simpa using hlen r hr
  have hd : ∀ row ∈ y, ∃ l : List ℝ, d2logy k1s (row.map fin) = l.map fin := fun row hrow =>
    exists_fin_list (d2_length _ _ (hlen row hrow)) (fun i hi => _)
      fun i hi => d2_get hk (hlen row hrow) (h0 row hrow) i (by omega)
  have hne : ((tens y).map fun row => (d2logy k1s row).map reluSq).flatten ≠ [] := by
    obtain ⟨r, hr⟩ := List.exists_mem_of_ne_nil y hy
    intro hcon
    have := List.flatten_eq_nil_iff.1 hcon _ (List.mem_map.2 ⟨_, List.mem_map.2 ⟨r, hr, rfl⟩, rfl⟩)
    have hl := congrArg List.length this
    rw [List.length_map, d2_length _ _ (hlen r hr)] at hl
    simp at hl
    omega
  have hz2 : 0 < zref ^ 2 := by positivity
  obtain ⟨v, hv, hmean, hzero⟩ := mean_reluSq (d2logy k1s) hd hne
  refine ⟨p.alphaPen2 * v / zref ^ 2, ?_, by positivity, ?_⟩
  · unfold pen2
    rw [if_pos hrows, hmean, fin_mul_fin, fin_div_fin _ hz2.ne', raiseIfNan_fin]
  · rw [div_eq_zero_iff, or_iff_left hz2.ne', mul_eq_zero, or_iff_right hp.ne', hzero]
    refine forall₂_congr fun row hrow => ?_
    have hl := hlen row hrow
    have hn := h0 row hrow
    have key : ∀ i (hi : i + 2 < k1s.length), (slope k1s row (i + 1) (i + 2) (by omega) hi hl -
        slope k1s row i (i + 1) (by omega) (by omega) hl) / ((Real.log k1s[i + 2] - Real.log k1s[i]) / 2) ≤ 0 ↔
        slope k1s row (i + 1) (i + 2) (by omega) hi hl ≤ slope k1s row i (i + 1) (by omega) (by omega) hl := by
      intro i hi
      have hlt := sub_pos.2 (hk.log_lt (show i < i + 2 by omega) hi)
      rw [div_le_iff₀ (by positivity), zero_mul, sub_nonpos]
    constructor
    · intro h i j l hll hlen' hij hjl
      have := concave_of_local (n := k1s.length) (u := fun i => if hi : i < k1s.length then Real.log k1s[i] else 0)
        (v := fun i => if hi : i < row.length then Real.log |row[i]| else 0) (i := i) (j := j) (l := l) ?_ ?_ hij hjl hll
      · simpa [slope, hl, hll, show i < k1s.length by omega, show j < k1s.length by omega] using this
      · intro i hi
        simpa [hi, show i < k1s.length by omega] using hk.log_lt (Nat.lt_succ_self i) hi
      · intro i hi
        have h1 := h _ (by rw [← d2_get hk hl hn i hi]; exact List.getElem_mem _)
        rw [key i hi] at h1
        simpa [slope, hl, hi, show i < k1s.length by omega, show i + 1 < k1s.length by omega] using h1
    · intro h x hx
      obtain ⟨i, hi, hxi⟩ := List.getElem_of_mem hx
      have hi' : i + 2 < k1s.length := by rw [d2_length _ _ hl] at hi; omega
      rw [d2_get hk hl hn i hi', fin_inj] at hxi
      rw [← hxi, key i hi']
      exact h i (i + 1) (i + 2) hi' hl (by omega) (by omega)

/-- **C31** Neither penalty changes when components are rescaled. -/
theorem C31_rescaling (p : LossParams) (zref : ℝ) {k1s : List ℝ} (hk : GoodGrid k1s) {y : List (List ℝ)}
    (h0 : NoZero y) (hlen : ∀ row ∈ y, row.length = k1s.length) (c : List ℝ → ℝ) (hc : ∀ row, c row ≠ 0) :
    pen1 p k1s zref (tens (y.map fun row => row.map (c row * ·))) = pen1 p k1s zref (tens y) ∧
    pen2 p k1s zref (tens (y.map fun row => row.map (c row * ·))) = pen2 p k1s zref (tens y) := by
  have hsl : ∀ row ∈ y, ∀ i j hi hj h h', slope k1s (row.map (c row * ·)) i j hi hj h = slope k1s row i j hi hj h' := by
    intro row hrow i j hi hj h h'
    unfold slope
    have hn := h0 row hrow
    simp only [List.getElem_map, abs_mul]
    rw [Real.log_mul (abs_ne_zero.2 (hc row)) (abs_ne_zero.2 (hn _ (List.getElem_mem _))),
      Real.log_mul (abs_ne_zero.2 (hc row)) (abs_ne_zero.2 (hn _ (List.getElem_mem _)))]
    congr 1
    ring
  have hz : ∀ row ∈ y, ∀ x ∈ row.map (c row * ·), x ≠ 0 := by
    intro row hrow x hx
    obtain ⟨z, hz, rfl⟩ := List.mem_map.1 hx
    exact mul_ne_zero (hc row) (h0 row hrow z hz)
  have e1 : ∀ row ∈ y, d1logy k1s ((row.map (c row * ·)).map fin) = d1logy k1s (row.map fin) := by
    intro row hrow
    have hl := hlen row hrow
    have hl' : (row.map (c row * ·)).length = k1s.length := by simpa using hl
    apply List.ext_getElem
    · rw [d1_length _ _ hl, d1_length _ _ hl']
    · intro i h1 h2
      rw [d1_length _ _ hl] at h2
      rw [d1_get hk hl' (hz row hrow) i (by omega), d1_get hk hl (h0 row hrow) i (by omega), hsl row hrow]
  have e2 : ∀ row ∈ y, d2logy k1s ((row.map (c row * ·)).map fin) = d2logy k1s (row.map fin) := by
    intro row hrow
    unfold d2logy
    rw [e1 row hrow]
  have hr1 : ∀ row ∈ tens (y.map fun row => row.map (c row * ·)), row.length = k1s.length := by
    intro row hrow
    unfold tens at hrow
    rw [List.map_map] at hrow
    obtain ⟨r, hr, rfl⟩ := List.mem_map.1 hrow
    simpa using hlen r hr
  have hr2 : ∀ row ∈ tens y, row.length = k1s.length := by
    intro row hrow
    obtain ⟨r, hr, rfl⟩ := List.mem_map.1 hrow
    simpa using hlen r hr
  constructor
  · unfold pen1
    rw [if_pos hr1, if_pos hr2]
    have : ((tens (y.map fun row => row.map (c row * ·))).map fun row => (d1logy k1s row).map reluSq) =
        (tens y).map fun row => (d1logy k1s row).map reluSq := by
      unfold tens
      rw [List.map_map, List.map_map, List.map_map]
      apply List.map_congr_left
      intro row hrow
      simp only [Function.comp_apply, e1 row hrow]
    rw [this]
  · unfold pen2
    rw [if_pos hr1, if_pos hr2]
    have : ((tens (y.map fun row => row.map (c row * ·))).map fun row => (d2logy k1s row).map reluSq) =
        (tens y).map fun row => (d2logy k1s row).map reluSq := by
      unfold tens
      rw [List.map_map, List.map_map, List.map_map]
      apply List.map_congr_left
      intro row hrow
      simp only [Function.comp_apply, e2 row hrow]
    rw [this]

/-- **C31** On grids that are too short (one point, resp. two points) an enabled penalty always raises: the mean of an
empty tensor is NaN. -/
theorem C31_too_short (p : LossParams) (zref : ℝ) {k1s : List ℝ} {y : List (List Fl)}
    (hlen : ∀ row ∈ y, row.length = k1s.length) :
    (k1s.length ≤ 1 → pen1 p k1s zref y = .error .valueError) ∧
    (k1s.length ≤ 2 → pen2 p k1s zref y = .error .valueError) := by
  have hnil : flMean [] = nan := by simp [flMean, zero_def, fin_div_zero]
  constructor
  · intro h
    have : (y.map fun row => (d1logy k1s row).map reluSq).flatten = [] := by
      rw [List.flatten_eq_nil_iff]
      intro l hl
      obtain ⟨row, hrow, rfl⟩ := List.mem_map.1 hl
      rw [← List.length_eq_zero_iff]
      simp [d1logy, flDiff_length, logAbs, h1Of, logK1]
      omega
    unfold pen1
    rw [if_pos hlen, this, hnil]
    simp [raiseIfNan]
  · intro h
    have : (y.map fun row => (d2logy k1s row).map reluSq).flatten = [] := by
      rw [List.flatten_eq_nil_iff]
      intro l hl
      obtain ⟨row, hrow, rfl⟩ := List.mem_map.1 hl
      rw [← List.length_eq_zero_iff]
      simp [d2logy, flDiff_length, h2Of, midpoints_length, logK1]
      omega
    unfold pen2
    rw [if_pos hlen, this, hnil]
    simp [raiseIfNan]

example : GoodGrid [0.1, 1, 10] ∧ NoZero [[3, 2, 1], [-1, -2, -1]] := by
  refine ⟨⟨by norm_num, by norm_num⟩, by simp [NoZero]⟩

/-! ### Total loss -/

theorem evalTerms_ok {p : LossParams} {k1s : List ℝ} {zref : ℝ} {a : EvalArgs} {v : Five Fl} :
    evalTerms p k1s zref a = .ok v ↔ mseTerm a.y a.yData = .ok v.mse ∧ cohTerm p a = .ok v.coherence ∧
      pen1Term p k1s zref a = .ok v.pen1 ∧ pen2Term p k1s zref a = .ok v.pen2 ∧ regTerm p a = .ok v.regularization := by
  unfold evalTerms
  simp only [bind, Except.bind, pure, Except.pure]
  constructor
  · intro h
    rcases h1 : mseTerm a.y a.yData with e | m
    · simp [h1] at h
    rcases h2 : cohTerm p a with e | m
    · simp [h1, h2] at h
    rcases h3 : pen1Term p k1s zref a with e | m
    · simp [h1, h2, h3] at h
    rcases h4 : pen2Term p k1s zref a with e | m
    · simp [h1, h2, h3, h4] at h
    rcases h5 : regTerm p a with e | m
    · simp [h1, h2, h3, h4, h5] at h
    simp only [h1, h2, h3, h4, h5, Except.ok.injEq] at h
    subst h
    exact ⟨rfl, rfl, rfl, rfl, rfl⟩
  · rintro ⟨h1, h2, h3, h4, h5⟩
    simp only [h1, h2, h3, h4, h5]

open Classical in
/-- **C32** A successful evaluation returns the misfit plus exactly the terms whose coefficient is positive and whose
inputs were supplied. -/
theorem C32_sum (p : LossParams) (k1s : List ℝ) (zref : ℝ) (a : EvalArgs) (s : LossState) {v : Fl}
    (h : (lossEval p k1s zref a s).1 = .ok v) :
    ∃ m c q1 q2 r : Fl, v = m + c + q1 + q2 + r ∧ mseTerm a.y a.yData = .ok m ∧
      (match a.coherence with
        | some d => if 0 < p.gammaCoherence then coherenceLoss p d = .ok c else c = 0
        | none => c = 0) ∧
      (if 0 < p.alphaPen1 then pen1 p k1s zref a.y = .ok q1 else q1 = 0) ∧
      (if 0 < p.alphaPen2 then pen2 p k1s zref a.y = .ok q2 else q2 = 0) ∧
      (if a.theta ≠ .none ∧ 0 < p.betaReg then regularization p a.theta = .ok r else r = 0) := by
  unfold lossEval at h
  rcases ht : evalTerms p k1s zref a with e | t
  · simp [ht] at h
  · simp only [ht, Except.ok.injEq] at h
    obtain ⟨h1, h2, h3, h4, h5⟩ := evalTerms_ok.1 ht
    refine ⟨_, _, _, _, _, h.symm, h1, ?_, ?_, ?_, ?_⟩
    · unfold cohTerm at h2
      rcases hc : a.coherence with _ | d <;> rw [hc] at h2
      · simp at h2; exact h2.symm
      · simp only at h2 ⊢
        split_ifs at h2 ⊢
        · exact h2
        · simp at h2; exact h2.symm
    · unfold pen1Term at h3
      split_ifs at h3 ⊢
      · exact h3
      · simp at h3; exact h3.symm
    · unfold pen2Term at h4
      split_ifs at h4 ⊢
      · exact h4
      · simp at h4; exact h4.symm
    · unfold regTerm at h5
      rcases hθ : a.theta with _ | _ | θ
      · simp [hθ] at h5 ⊢; exact h5.symm
      · by_cases hb : 0 < p.betaReg
        · simp [hθ, hb] at h5 ⊢; exact h5
        · simp [hθ, hb] at h5 ⊢; exact h5.symm
      · by_cases hb : 0 < p.betaReg
        · simp [hθ, hb] at h5 ⊢; exact h5
        · simp [hθ, hb] at h5 ⊢; exact h5.symm

theorem evalTerms_ge0 {p : LossParams} {k1s : List ℝ} {zref : ℝ} (hz : 0 ≤ zref) {a : EvalArgs} {v : Five Fl}
    (h : evalTerms p k1s zref a = .ok v) :
    Ge0 v.mse ∧ Ge0 v.coherence ∧ Ge0 v.pen1 ∧ Ge0 v.pen2 ∧ Ge0 v.regularization := by
  have zero : ∀ {x : Fl}, (Except.ok (fin 0) : Except PyErr Fl) = .ok x → Ge0 x := by
    intro x hx
    injection hx with hx
    rw [← hx]
    exact ge0_zero
  obtain ⟨h1, h2, h3, h4, h5⟩ := evalTerms_ok.1 h
  refine ⟨mseTerm_ge0 h1, ?_, ?_, ?_, ?_⟩
  · unfold cohTerm at h2
    rcases hc : a.coherence with _ | d <;> rw [hc] at h2
    · exact zero h2
    · simp only at h2
      split_ifs at h2 with hg
      · exact coh_ge0 hg h2
      · exact zero h2
  · unfold pen1Term at h3
    split_ifs at h3 with hg
    · exact pen1_ge0 hg hz h3
    · exact zero h3
  · unfold pen2Term at h4
    split_ifs at h4 with hg
    · exact pen2_ge0 hg h4
    · exact zero h4
  · unfold regTerm at h5
    rcases hθ : a.theta with _ | _ | θ <;> rw [hθ] at h5
    · exact zero h5
    · simp only at h5
      split_ifs at h5 with hg
      · exact reg_ge0 hg h5
      · exact zero h5
    · simp only at h5
      split_ifs at h5 with hg
      · exact reg_ge0 hg h5
      · exact zero h5

/-- **C32** For every input (zeros, infinities, NaNs, any coefficients, any reference height `≥ 0`) the evaluation
either raises or returns a value that is not NaN and not negative. -/
theorem C32_never_nan (p : LossParams) (k1s : List ℝ) {zref : ℝ} (hz : 0 ≤ zref) (a : EvalArgs) (s : LossState) :
    (∃ e, (lossEval p k1s zref a s).1 = .error e) ∨
    (lossEval p k1s zref a s).1 = .ok pinf ∨ ∃ v : ℝ, 0 ≤ v ∧ (lossEval p k1s zref a s).1 = .ok (fin v) := by
  rcases ht : evalTerms p k1s zref a with e | t
  · left; exact ⟨e, by simp [lossEval, ht]⟩
  · right
    obtain ⟨h1, h2, h3, h4, h5⟩ := evalTerms_ge0 hz ht
    have : (lossEval p k1s zref a s).1 = .ok (t.mse + t.coherence + t.pen1 + t.pen2 + t.regularization) := by
      simp [lossEval, ht]
    rw [this]
    rcases (((h1.add h2).add h3).add h4).add h5 with h | ⟨v, hv, h⟩
    · left; rw [h]
    · right; exact ⟨v, hv, by rw [h]⟩

/-- **C32** The restriction on the reference height is needed: with a negative one the evaluation can return NaN without
raising (`+inf` misfit plus `-inf` penalty). -/
theorem C32_negative_height (s : LossState) :
    (lossEval ⟨1, 0, 0, 0⟩ [1, 2] (-1) ⟨[[fin 0, fin 1]], [[fin 1, fin 1]], .none, none⟩ s).1 = .ok nan := by
  have h1 : mseTerm [[fin 0, fin 1]] [[fin 1, fin 1]] = .ok pinf := by
    unfold mseTerm
    rw [if_pos (by simp [sameShape])]
    have : zipFlat (fun m t => Fl.log (Fl.abs (m / t)) * Fl.log (Fl.abs (m / t))) [[fin 0, fin 1]] [[fin 1, fin 1]] =
        [pinf, fin 0] := by
      simp [zipFlat, fin_div_fin, log_fin]
    rw [this]
    have : flMean [pinf, fin 0] = pinf := by
      simp only [flMean, List.sum_cons, List.sum_nil, zero_def, fin_add_fin, pinf_add_fin]
      exact pinf_div_fin_pos (by positivity)
    rw [this]
    simp [raiseIfNan]
  have h2 : pen1 ⟨1, 0, 0, 0⟩ [1, 2] (-1) [[fin 0, fin 1]] = .ok ninf := by
    unfold pen1
    rw [if_pos (by simp)]
    have hl2 : 0 < Real.log 2 := Real.log_pos (by norm_num)
    have : ([[fin 0, fin 1]].map fun row => (d1logy [1, 2] row).map reluSq).flatten = [pinf] := by
      have e : fin 0 - ninf = pinf := by rw [sub_def, neg_ninf, fin_add_pinf]
      have e2 : pinf / fin (Real.log 2) = pinf := pinf_div_fin_pos hl2.le
      simp [d1logy, logAbs, flDiff, h1Of, logK1, log_fin, e, e2, reluSq, Fl.relu]
    rw [this]
    have h3 : flMean [pinf] = pinf := by
      simp only [flMean, List.sum_cons, List.sum_nil, zero_def, pinf_add_fin]
      exact pinf_div_fin_pos (by positivity)
    have h4 : pinf / fin (-1) = ninf := by
      show (if (0:ℝ) ≤ -1 then pinf else ninf) = ninf
      norm_num
    rw [h3, fin_mul_pinf, infMul_pos one_pos, h4]
    simp [raiseIfNan]
  simp [lossEval, evalTerms, h1, cohTerm, pen1Term, h2, pen2Term, regTerm, bind, Except.bind, pure, Except.pure]

/-- **C32/C24** A NaN anywhere in the prediction makes the evaluation raise `ValueError`. -/
theorem C24_nan_raises (p : LossParams) (k1s : List ℝ) (zref : ℝ) (a : EvalArgs) (s : LossState)
    (hs : sameShape a.y a.yData) (h : ∃ row ∈ a.y, nan ∈ row) :
    (lossEval p k1s zref a s).1 = .error .valueError := by
  obtain ⟨row, hrow, hx⟩ := h
  obtain ⟨i, hi, rfl⟩ := List.getElem_of_mem hrow
  obtain ⟨j, hj, hnan⟩ := List.getElem_of_mem hx
  have hlen : a.y.length = a.yData.length := by simpa using congrArg List.length hs
  have hrl : a.y[i].length = (a.yData[i]'(by omega)).length := by
    have h1 : (a.y.map List.length)[i]'(by simpa using hi) = (a.yData.map List.length)[i]'(by simpa [← hlen] using hi) := by
      simp only [show a.y.map List.length = a.yData.map List.length from hs]
    simpa using h1
  have hmem := getElem_mem_zipFlat (fun m t => Fl.log (Fl.abs (m / t)) * Fl.log (Fl.abs (m / t))) hi
    (show i < a.yData.length by omega) hj (by omega)
  have hsq : ∀ t : Fl, Fl.log (Fl.abs (nan / t)) * Fl.log (Fl.abs (nan / t)) = nan := by
    intro t; rw [nan_div]; rfl
  simp only [hnan, hsq] at hmem
  have : mseTerm a.y a.yData = .error .valueError := by
    unfold mseTerm
    rw [if_pos hs, mean_eq_nan_of_mem hmem, raiseIfNan_nan]
  simp [lossEval, evalTerms, this, bind, Except.bind]

/-! ### Histories -/

/-- Run a sequence of evaluations, keeping the state across exceptions. -/
def runEvals (p : LossParams) (k1s : List ℝ) (zref : ℝ) (calls : List EvalArgs) (s : LossState) : LossState :=
  calls.foldl (fun s a => (lossEval p k1s zref a s).2) s

/-- The values returned by the successful calls of a sequence, in order. -/
def returned (p : LossParams) (k1s : List ℝ) (zref : ℝ) : List EvalArgs → LossState → List Fl
  | [], _ => []
  | a :: calls, s =>
    match lossEval p k1s zref a s with
    | (.ok v, s') => v :: returned p k1s zref calls s'
    | (.error _, s') => returned p k1s zref calls s'

/-- **C33** A call that raises leaves histories and running averages unchanged. -/
theorem C33_failure_no_trace (p : LossParams) (k1s : List ℝ) (zref : ℝ) (a : EvalArgs) (s : LossState) {e : PyErr}
    (h : (lossEval p k1s zref a s).1 = .error e) : (lossEval p k1s zref a s).2 = s := by
  unfold lossEval at h ⊢
  rcases ht : evalTerms p k1s zref a with e | t
  · rfl
  · simp [ht] at h

/-- Alignment of the six histories. -/
structure LossState.Aligned (s : LossState) : Prop where
  coherence : s.hist.coherence.length = s.hist.mse.length
  pen1 : s.hist.pen1.length = s.hist.mse.length
  pen2 : s.hist.pen2.length = s.hist.mse.length
  regularization : s.hist.regularization.length = s.hist.mse.length
  total : s.total.length = s.hist.mse.length
  sums : ∀ i (hi : i < s.hist.mse.length), s.total[i]'(by omega) = s.hist.mse[i] + s.hist.coherence[i]'(by omega) +
    s.hist.pen1[i]'(by omega) + s.hist.pen2[i]'(by omega) + s.hist.regularization[i]'(by omega)

theorem aligned_eval (p : LossParams) (k1s : List ℝ) (zref : ℝ) (a : EvalArgs) {s : LossState} (h : s.Aligned) :
    (lossEval p k1s zref a s).2.Aligned := by
  unfold lossEval
  rcases ht : evalTerms p k1s zref a with e | t
  · exact h
  · refine ⟨by simp [h.coherence], by simp [h.pen1], by simp [h.pen2], by simp [h.regularization], by simp [h.total], ?_⟩
    intro i hi
    simp only [List.length_append, List.length_cons, List.length_nil, zero_add] at hi
    rcases Nat.lt_succ_iff_lt_or_eq.1 hi with hlt | rfl
    · have hs := h.sums i hlt
      have h1 := h.coherence
      have h2 := h.pen1
      have h3 := h.pen2
      have h4 := h.regularization
      have h5 := h.total
      simp only
      rw [List.getElem_append_left (by omega), List.getElem_append_left (by omega), List.getElem_append_left (by omega),
        List.getElem_append_left (by omega), List.getElem_append_left (by omega), List.getElem_append_left (by omega)]
      exact hs
    · simp [h.coherence, h.pen1, h.pen2, h.regularization, h.total]

/-- **C33** After any sequence of calls, some of which may raise, the six histories have the same length, namely the
number of successful calls, each total is the sum of the other five entries at its position, and the totals are exactly
the values the successful calls returned, in order. -/
theorem C33_aligned (p : LossParams) (k1s : List ℝ) (zref : ℝ) (calls : List EvalArgs) :
    (runEvals p k1s zref calls .init).Aligned ∧
    (runEvals p k1s zref calls .init).total = returned p k1s zref calls .init := by
  have h0 : LossState.init.Aligned := ⟨rfl, rfl, rfl, rfl, rfl, by intro i hi; simp [LossState.init] at hi⟩
  have gen : ∀ (calls : List EvalArgs) (s : LossState), s.Aligned → (runEvals p k1s zref calls s).Aligned ∧
      (runEvals p k1s zref calls s).total = s.total ++ returned p k1s zref calls s := by
    intro calls
    induction calls with
    | nil => intro s hs; exact ⟨hs, by simp [runEvals, returned]⟩
    | cons a calls ih =>
      intro s hs
      have := ih _ (aligned_eval p k1s zref a hs)
      refine ⟨this.1, ?_⟩
      show (runEvals p k1s zref calls (lossEval p k1s zref a s).2).total = _
      rw [this.2]
      rw [returned]
      rcases hl : lossEval p k1s zref a s with ⟨e | v, s'⟩
      · have : (lossEval p k1s zref a s).2 = s :=
          C33_failure_no_trace p k1s zref a s (e := e) (by rw [hl])
        rw [hl] at this
        simp only at this ⊢
        rw [this]
      · have : s'.total = s.total ++ [v] := by
          unfold lossEval at hl
          rcases ht : evalTerms p k1s zref a with e | t
          · simp [ht] at hl
          · rw [ht] at hl
            simp only [Prod.mk.injEq, Except.ok.injEq] at hl
            rw [← hl.2, ← hl.1]
        simp [this]
  have := gen calls .init h0
  exact ⟨this.1, by simpa [LossState.init] using this.2⟩

/-- A history with successes and a failure between them. -/
example : ∃ calls : List EvalArgs, (returned ⟨0, 0, 0, 0⟩ [1] 1 calls .init).length = 2 ∧ calls.length = 3 := by
  have hok : mseTerm [[fin 1]] [[fin 1]] = .ok (fin 0) := by
    have := C30_value (m := [[1]]) (t := [[1]]) rfl (by simp [NoZero]) (by simp [NoZero]) (by simp [pairs])
    simpa [tens, pairs] using this
  have hbad : mseTerm [] [] = .error .valueError := C30_empty
  refine ⟨[⟨[[fin 1]], [[fin 1]], .none, none⟩, ⟨[], [], .none, none⟩, ⟨[[fin 1]], [[fin 1]], .none, none⟩], ?_, rfl⟩
  simp [returned, lossEval, evalTerms, hok, hbad, cohTerm, pen1Term, pen2Term, regTerm, bind, Except.bind, pure,
    Except.pure]

end
end Verif
