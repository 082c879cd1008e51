import Verif.Lemmas.OnePoint
import Mathlib.MeasureTheory.Integral.IntervalIntegral.Basic
import Mathlib.MeasureTheory.Integral.IntervalIntegral.ContDiff
import Mathlib.Topology.UniformSpace.HeineCantor
import Mathlib.MeasureTheory.Integral.DominatedConvergence
import Mathlib.Analysis.SpecialFunctions.Pow.Continuity

/-! Convergence of the trapezoid sums under refinement. -/

namespace Verif
open Fl Filter Topology MeasureTheory

noncomputable section

/-- Consecutive points of the list are increasing and at most `d` apart. -/
def FineGrid (d : ℝ) (g : List ℝ) : Prop := g.IsChain fun x y => x ≤ y ∧ y - x ≤ d

/-- `f` varies by at most `e` over distances up to `d` inside `[a, b]`. -/
def Modulus (f : ℝ → ℝ) (a b d e : ℝ) : Prop :=
  ∀ x ∈ Set.Icc a b, ∀ y ∈ Set.Icc a b, |x - y| ≤ d → |f x - f y| ≤ e

theorem trapz_sub (g : List ℝ) (f f' : ℝ → ℝ) :
    trapz g (g.map f) - trapz g (g.map f') = trapz g (g.map fun x => f x - f' x) := by
  induction g with
  | nil => simp [trapz]
  | cons x l ih =>
    cases l with
    | nil => simp [trapz]
    | cons y l =>
      rw [trapz_cons2, trapz_cons2, trapz_cons2, ← ih]
      simp only [smul_eq_mul]; ring

theorem trapz_const (g : List ℝ) (c : ℝ) : trapz g (g.map fun _ => c) = c * gridWidth g := by
  unfold gridWidth
  induction g with
  | nil => simp [trapz]
  | cons x l ih =>
    cases l with
    | nil => simp [trapz]
    | cons y l =>
      rw [trapz_cons2, ih]
      have e : (x :: y :: l).getLastD 0 = (y :: l).getLastD 0 := by simp
      rw [e]
      simp only [List.headD_cons, smul_eq_mul]; ring

theorem fineGrid_sorted {d : ℝ} {g : List ℝ} (h : FineGrid d g) : g.Pairwise (· ≤ ·) := by
  have : g.IsChain (· ≤ ·) := List.IsChain.imp (fun _ _ h => h.1) h
  exact this.pairwise

/-- One panel of the trapezoid rule. -/
theorem panel_err {f : ℝ → ℝ} {a b d e x y : ℝ} (hx : a ≤ x) (hy : y ≤ b) (hxy : x ≤ y) (hd : y - x ≤ d)
    (hf : ContinuousOn f (Set.Icc a b)) (hm : Modulus f a b d e) :
    |(y - x) / 2 * (f x + f y) - ∫ t in x..y, f t| ≤ e * (y - x) := by
  have hs : Set.Icc x y ⊆ Set.Icc a b := Set.Icc_subset_Icc hx hy
  have hi : IntervalIntegrable f volume x y := (hf.mono hs).intervalIntegrable_of_Icc hxy
  have e1 : (y - x) / 2 * (f x + f y) = ∫ t in x..y, (f x + f y) / 2 := by
    rw [intervalIntegral.integral_const, smul_eq_mul]; ring
  rw [e1, ← intervalIntegral.integral_sub (by simp) hi]
  have := intervalIntegral.norm_integral_le_of_norm_le_const (a := x) (b := y) (C := e)
    (f := fun t => (f x + f y) / 2 - f t) ?_
  · rwa [abs_of_nonneg (by linarith : (0:ℝ) ≤ y - x), Real.norm_eq_abs] at this
  · intro t ht
    rw [Set.uIoc_of_le hxy] at ht
    have ht' : t ∈ Set.Icc a b := hs ⟨ht.1.le, ht.2⟩
    have h1 := hm x (hs ⟨le_rfl, hxy⟩) t ht' (by rw [abs_le]; constructor <;> linarith [ht.1, ht.2])
    have h2 := hm y (hs ⟨hxy, le_rfl⟩) t ht' (by rw [abs_le]; constructor <;> linarith [ht.1, ht.2])
    rw [Real.norm_eq_abs]
    rw [abs_le] at h1 h2 ⊢
    constructor <;> linarith [h1.1, h1.2, h2.1, h2.2]

/-- Error of the trapezoid sum on a fine grid. -/
theorem trapz_err {f : ℝ → ℝ} {a b d e : ℝ} {g : List ℝ} (hne : g ≠ []) (hg : FineGrid d g)
    (hin : ∀ x ∈ g, x ∈ Set.Icc a b) (hf : ContinuousOn f (Set.Icc a b)) (hm : Modulus f a b d e) :
    |trapz g (g.map f) - ∫ t in (g.headD 0)..(g.getLastD 0), f t| ≤ e * gridWidth g := by
  induction g with
  | nil => exact absurd rfl hne
  | cons x l ih =>
    cases l with
    | nil => simp [trapz, gridWidth]
    | cons y l =>
      have hc := List.isChain_cons_cons.1 hg
      have ih' := ih (by simp) hc.2 (fun z hz => hin z (by simp [hz]))
      have hx := hin x (by simp)
      have hy := hin y (by simp)
      have hlast : (y :: l).getLastD 0 ∈ (y :: l) := by
        rw [List.getLastD_eq_getLast?, List.getLast?_eq_getLast_of_ne_nil (by simp)]
        simp
      have hl := hin _ (List.mem_cons_of_mem x hlast)
      have hyl : y ≤ (y :: l).getLastD 0 := by
        rcases List.mem_cons.1 hlast with h | h
        · exact h.ge
        · exact (List.pairwise_cons.1 (fineGrid_sorted hc.2)).1 _ h
      have e1 : (x :: y :: l).getLastD 0 = (y :: l).getLastD 0 := by simp
      rw [trapz_cons2]
      unfold gridWidth at ih' ⊢
      rw [e1]
      simp only [List.headD_cons, smul_eq_mul] at ih' ⊢
      have i1 : IntervalIntegrable f volume x y :=
        (hf.mono (Set.Icc_subset_Icc hx.1 hy.2)).intervalIntegrable_of_Icc hc.1.1
      have i2 : IntervalIntegrable f volume y ((y :: l).getLastD 0) :=
        (hf.mono (Set.Icc_subset_Icc hy.1 hl.2)).intervalIntegrable_of_Icc hyl
      rw [← intervalIntegral.integral_add_adjacent_intervals i1 i2]
      have hp := panel_err hx.1 hy.2 hc.1.1 hc.1.2 hf hm
      rw [abs_le] at hp ih' ⊢
      constructor <;> nlinarith [hp.1, hp.2, ih'.1, ih'.2]

/-- Error of the double trapezoid sum. -/
theorem quad23_err {f : ℝ → ℝ → ℝ} {a d e : ℝ} {g : List ℝ} (ha : 0 ≤ a) (he : 0 ≤ e) (hne : g ≠ []) (hg : FineGrid d g)
    (h0 : g.headD 0 = -a) (h1 : g.getLastD 0 = a) (hin : ∀ x ∈ g, x ∈ Set.Icc (-a) a)
    (hf : Continuous fun p : ℝ × ℝ => f p.1 p.2)
    (hm : ∀ p ∈ Set.Icc (-a) a ×ˢ Set.Icc (-a) a, ∀ q ∈ Set.Icc (-a) a ×ˢ Set.Icc (-a) a,
      |p.1 - q.1| ≤ d → |p.2 - q.2| ≤ d → |f p.1 p.2 - f q.1 q.2| ≤ e) :
    |quad23 g g f - ∫ x in (-a)..a, ∫ y in (-a)..a, f x y| ≤ 2 * e * (2 * a) ^ 2 := by
  have hd : 0 ≤ d ∨ d < 0 := le_or_gt 0 d
  have hw : gridWidth g = 2 * a := by unfold gridWidth; rw [h0, h1]; ring
  have hcol : ∀ x, Continuous fun y => f x y := fun x => hf.comp (Continuous.prodMk_right x)
  have hG : Continuous fun x => ∫ y in (-a)..a, f x y :=
    intervalIntegral.continuous_parametric_intervalIntegral_of_continuous' (f := f) hf (-a) a
  by_cases hd : 0 ≤ d
  · have s1 : ∀ x ∈ g, |trapz g (g.map fun y => f x y) - ∫ y in (-a)..a, f x y| ≤ e * (2 * a) := by
      intro x hx
      have := trapz_err (f := fun y => f x y) (a := -a) (b := a) (e := e) hne hg hin (hcol x).continuousOn
        (fun y hy z hz hyz => hm (x, y) ⟨hin x hx, hy⟩ (x, z) ⟨hin x hx, hz⟩ (by simpa using hd) hyz)
      rwa [h0, h1, hw] at this
    have s2 : |trapz g (g.map fun x => ∫ y in (-a)..a, f x y) - ∫ x in (-a)..a, ∫ y in (-a)..a, f x y| ≤
        (e * (2 * a)) * (2 * a) := by
      have := trapz_err (f := fun x => ∫ y in (-a)..a, f x y) (a := -a) (b := a) (e := e * (2 * a)) hne hg hin
        hG.continuousOn ?_
      · rwa [h0, h1, hw] at this
      · intro x hx y hy hxy
        rw [← intervalIntegral.integral_sub ((hcol x).intervalIntegrable _ _) ((hcol y).intervalIntegrable _ _)]
        have := intervalIntegral.norm_integral_le_of_norm_le_const (a := -a) (b := a) (C := e)
          (f := fun t => f x t - f y t) ?_
        · rwa [Real.norm_eq_abs, show a - -a = 2 * a by ring, abs_of_nonneg (by linarith : (0:ℝ) ≤ 2 * a)] at this
        · intro t ht
          rw [Set.uIoc_of_le (by linarith)] at ht
          have ht' : t ∈ Set.Icc (-a) a := ⟨ht.1.le, ht.2⟩
          exact hm (x, t) ⟨hx, ht'⟩ (y, t) ⟨hy, ht'⟩ hxy (by simpa using hd)
    have s3 : |quad23 g g f - trapz g (g.map fun x => ∫ y in (-a)..a, f x y)| ≤ (e * (2 * a)) * (2 * a) := by
      unfold quad23
      rw [trapz_sub]
      have := trapz_norm_le (fineGrid_sorted hg) (fun x => trapz g (g.map fun y => f x y) - ∫ y in (-a)..a, f x y)
        (b := fun _ => e * (2 * a)) s1
      rwa [trapz_const, hw] at this
    rw [abs_le] at s2 s3 ⊢
    constructor <;> nlinarith [s2.1, s2.2, s3.1, s3.2]
  · -- a grid with at least two points has a non-negative spacing
    have hg1 : g.length ≤ 1 := by
      match g, hg with
      | [], _ => simp
      | [x], _ => simp
      | x :: y :: l, hg =>
        have := (List.isChain_cons_cons.1 hg).1
        exact absurd (le_trans (sub_nonneg.2 this.1) this.2) hd
    obtain ⟨x, rfl⟩ : ∃ x, g = [x] := by
      match g, hne, hg1 with
      | [x], _, _ => exact ⟨x, rfl⟩
    simp only [List.headD_cons] at h0
    simp only [List.getLastD_cons, List.getLastD_nil] at h1
    have : a = 0 := by linarith
    subst this
    simp [quad23, trapz]

/-- Modulus of continuity on a square, from compactness. -/
theorem square_modulus {f : ℝ → ℝ → ℝ} (hf : Continuous fun p : ℝ × ℝ => f p.1 p.2) (a : ℝ) {e : ℝ} (he : 0 < e) :
    ∃ d > 0, ∀ p ∈ Set.Icc (-a) a ×ˢ Set.Icc (-a) a, ∀ q ∈ Set.Icc (-a) a ×ˢ Set.Icc (-a) a,
      |p.1 - q.1| ≤ d → |p.2 - q.2| ≤ d → |f p.1 p.2 - f q.1 q.2| ≤ e := by
  have hc : IsCompact (Set.Icc (-a) a ×ˢ Set.Icc (-a) a) := isCompact_Icc.prod isCompact_Icc
  have hu := hc.uniformContinuousOn_of_continuous hf.continuousOn
  obtain ⟨d, hd, h⟩ := Metric.uniformContinuousOn_iff.1 hu e he
  refine ⟨d / 2, by linarith, fun p hp q hq h1 h2 => ?_⟩
  have := h p hp q hq ?_
  · rw [Real.dist_eq] at this; exact this.le
  · rw [Prod.dist_eq, Real.dist_eq, Real.dist_eq]
    exact max_lt (by linarith) (by linarith)

/-! ### The library's grid -/

theorem logspace_fine {p1 p2 d : ℝ} (h : p1 < p2) (hd : 0 < d) :
    ∃ N, ∀ n ≥ N, FineGrid d (logspace p1 p2 n) := by
  have h10 : (0:ℝ) < (10:ℝ) ^ p2 := by positivity
  have hcont : ContinuousAt (fun x : ℝ => (10:ℝ) ^ x) 0 :=
    (Real.continuous_const_rpow (by norm_num : (10:ℝ) ≠ 0)).continuousAt
  have htend : Tendsto (fun n : ℕ => (10:ℝ) ^ ((p2 - p1) / ((n:ℝ) - 1))) atTop (𝓝 1) := by
    have h1 : Tendsto (fun n : ℕ => (p2 - p1) / ((n:ℝ) - 1)) atTop (𝓝 0) := by
      apply Tendsto.const_div_atTop
      exact tendsto_atTop_add_const_right _ _ tendsto_natCast_atTop_atTop
    have := hcont.tendsto.comp h1
    rw [Real.rpow_zero] at this
    exact this
  have hev : ∀ᶠ n : ℕ in atTop, (10:ℝ) ^ ((p2 - p1) / ((n:ℝ) - 1)) < 1 + d / (10:ℝ) ^ p2 :=
    htend.eventually_lt_const (by have := div_pos hd h10; linarith)
  obtain ⟨N, hN⟩ := eventually_atTop.1 hev
  refine ⟨max N 2, fun n hn => ?_⟩
  have hN' := hN n (le_trans (le_max_left _ _) hn)
  have hn2 : 2 ≤ n := le_trans (le_max_right _ _) hn
  have hn' : (0:ℝ) < (n : ℝ) - 1 := by
    have : (2:ℝ) ≤ n := by exact_mod_cast hn2
    linarith
  unfold FineGrid logspace linspace
  rw [List.map_map, List.isChain_map, List.isChain_iff_getElem]
  intro i hi
  rw [List.length_range] at hi
  simp only [List.getElem_range, Function.comp]
  set A := p1 + (p2 - p1) * (i:ℝ) / ((n:ℝ) - 1) with hA
  have hstep : p1 + (p2 - p1) * ((i + 1 : ℕ) : ℝ) / ((n:ℝ) - 1) = A + (p2 - p1) / ((n:ℝ) - 1) := by
    rw [hA]; push_cast; ring
  have hq : 0 ≤ (p2 - p1) / ((n:ℝ) - 1) := div_nonneg (by linarith) hn'.le
  have hAle : A ≤ p2 := by
    have h1 : (i:ℝ) ≤ (n:ℝ) - 1 := by
      have : ((i + 1 : ℕ) : ℝ) ≤ n := by exact_mod_cast hi.le
      push_cast at this; linarith
    have : (p2 - p1) * (i:ℝ) / ((n:ℝ) - 1) ≤ p2 - p1 := by
      rw [div_le_iff₀ hn']; exact mul_le_mul_of_nonneg_left h1 (by linarith)
    rw [hA]; linarith
  rw [hstep, Real.rpow_add (by norm_num) A]
  have hAp : (0:ℝ) < (10:ℝ) ^ A := by positivity
  have hA2 : (10:ℝ) ^ A ≤ (10:ℝ) ^ p2 := Real.rpow_le_rpow_of_exponent_le (by norm_num) hAle
  have hge : (1:ℝ) ≤ (10:ℝ) ^ ((p2 - p1) / ((n:ℝ) - 1)) := Real.one_le_rpow (by norm_num) hq
  have h5 := mul_nonneg hAp.le (sub_nonneg.2 hge)
  have e5 : (10:ℝ) ^ A * ((10:ℝ) ^ ((p2 - p1) / ((n:ℝ) - 1)) - 1) =
      (10:ℝ) ^ A * (10:ℝ) ^ ((p2 - p1) / ((n:ℝ) - 1)) - (10:ℝ) ^ A := by ring
  constructor
  · linarith
  · have h3 : (10:ℝ) ^ A * ((10:ℝ) ^ ((p2 - p1) / ((n:ℝ) - 1)) - 1) ≤ (10:ℝ) ^ p2 * (d / (10:ℝ) ^ p2) :=
      mul_le_mul hA2 (by linarith) (by linarith) h10.le
    have h4 : (10:ℝ) ^ p2 * (d / (10:ℝ) ^ p2) = d := by field_simp
    linarith

theorem logspace_head {p1 p2 : ℝ} {n : ℕ} (hn : 1 ≤ n) : (logspace p1 p2 n).head? = some ((10:ℝ) ^ p1) := by
  obtain ⟨m, rfl⟩ : ∃ m, n = m + 1 := ⟨n - 1, by omega⟩
  unfold logspace linspace
  rw [List.range_succ_eq_map]
  simp

theorem opsGrid_fine {p1 p2 d : ℝ} (h : p1 < p2) (hd : (10:ℝ) ^ p1 ≤ d) :
    ∃ N, ∀ n ≥ N, FineGrid d (opsGrid p1 p2 n) := by
  have hd0 : 0 < d := lt_of_lt_of_le (by positivity) hd
  obtain ⟨N, hN⟩ := logspace_fine h hd0
  refine ⟨max N 1, fun n hn => ?_⟩
  have hf := hN n (le_trans (le_max_left _ _) hn)
  have hhead := logspace_head (p1 := p1) (p2 := p2) (le_trans (le_max_right _ _) hn)
  unfold FineGrid opsGrid at *
  rw [List.append_assoc, List.isChain_append]
  refine ⟨?_, ?_, ?_⟩
  · rw [List.isChain_map, List.isChain_reverse]
    refine List.IsChain.imp ?_ hf
    intro x y hxy
    constructor <;> linarith [hxy.1, hxy.2]
  · rw [List.singleton_append, List.isChain_cons]
    refine ⟨?_, hf⟩
    intro y hy
    rw [hhead] at hy
    cases hy
    exact ⟨by positivity, by linarith⟩
  · intro x hx y hy
    simp only [List.getLast?_map, List.getLast?_reverse, hhead, Option.map_some, Option.mem_def, Option.some.injEq] at hx
    simp only [List.singleton_append, List.head?_cons, Option.mem_def, Option.some.injEq] at hy
    subst hx hy
    exact ⟨by have : (0:ℝ) < (10:ℝ) ^ p1 := by positivity
              linarith, by linarith⟩

end
end Verif
