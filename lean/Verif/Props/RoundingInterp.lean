import Verif.Model.RoundedInterp
import Verif.Props.LowFreqGrid
import Verif.Props.RoundingLow

/-!
# C150: the interpolated low-frequency field, continuity and rounding errors
-/

namespace Verif

noncomputable section
open Classical

/-! ### Continuity -/

/-- Linear interpolation between `v a` and `v (a + 1)`. -/
def lin (v : ℕ → ℝ) (a : ℕ) (s : ℝ) : ℝ := (1 - s) * v a + s * v (a + 1)

theorem steps_le {v : ℕ → ℝ} {N : ℕ} {D : ℝ} (hv : ∀ k, k + 1 < N → |v (k + 1) - v k| ≤ D) {a b : ℕ} (hab : a ≤ b) (hb : b < N) :
    |v b - v a| ≤ D * ((b : ℝ) - a) := by
  induction b, hab using Nat.le_induction with
  | base => simp
  | succ b hab ih =>
    have h1 := ih (by omega)
    have h2 := hv b hb
    have : |v (b + 1) - v a| ≤ |v (b + 1) - v b| + |v b - v a| := by
      have := abs_add_le (v (b + 1) - v b) (v b - v a)
      rwa [sub_add_sub_cancel] at this
    push_cast
    linarith

theorem lin_sub (v : ℕ → ℝ) (a : ℕ) (s t : ℝ) : lin v a s - lin v a t = (s - t) * (v (a + 1) - v a) := by
  unfold lin; ring

theorem lin_lipschitz {v : ℕ → ℝ} {N : ℕ} {D : ℝ} (hv : ∀ k, k + 1 < N → |v (k + 1) - v k| ≤ D) {a b : ℕ} (ha : a + 1 < N)
    (hb : b + 1 < N) {s t : ℝ} (s0 : 0 ≤ s) (s1 : s ≤ 1) (t0 : 0 ≤ t) (t1 : t ≤ 1) :
    |lin v a s - lin v b t| ≤ D * |((a : ℝ) + s) - (b + t)| := by
  have key : ∀ {a b : ℕ} {s t : ℝ}, a + 1 < N → b + 1 < N → 0 ≤ s → s ≤ 1 → 0 ≤ t → t ≤ 1 → a < b →
      |lin v a s - lin v b t| ≤ D * |((a : ℝ) + s) - (b + t)| := by
    intro a b s t ha hb s0 s1 t0 t1 hab
    have h1 := steps_le hv (by omega : a + 1 ≤ b) (by omega)
    have h2 := hv a ha
    have h3 := hv b hb
    have hle : (a : ℝ) + 1 ≤ b := by exact_mod_cast hab
    have e : lin v a s - lin v b t = -((1 - s) * (v (a + 1) - v a)) - (v b - v (a + 1)) - t * (v (b + 1) - v b) := by
      unfold lin; ring
    have b1 : |(1 - s) * (v (a + 1) - v a)| ≤ (1 - s) * D := by
      rw [abs_mul, abs_of_nonneg (by linarith : 0 ≤ 1 - s)]
      exact mul_le_mul_of_nonneg_left h2 (by linarith)
    have b3 : |t * (v (b + 1) - v b)| ≤ t * D := by
      rw [abs_mul, abs_of_nonneg t0]
      exact mul_le_mul_of_nonneg_left h3 t0
    have c1 := abs_le.1 b1
    have c2 := abs_le.1 h1
    have c3 := abs_le.1 b3
    rw [abs_of_nonpos (by linarith : ((a : ℝ) + s) - (b + t) ≤ 0), e]
    push_cast at c2
    apply abs_le.2
    constructor <;> nlinarith
  rcases lt_trichotomy a b with h | rfl | h
  · exact key ha hb s0 s1 t0 t1 h
  · rw [lin_sub, abs_mul, mul_comm, add_sub_add_left_eq_sub]
    exact mul_le_mul_of_nonneg_right (hv a ha) (abs_nonneg _)
  · rw [abs_sub_comm, abs_sub_comm ((a : ℝ) + s)]
    exact key hb ha t0 t1 s0 s1 h

/-- A mixture of numbers of modulus at most `c`. -/
theorem lin_abs_le {v : ℕ → ℝ} {a : ℕ} {s c κ : ℝ} (h1 : |v a| ≤ c) (h2 : |v (a + 1)| ≤ c) (s0 : -κ ≤ s) (s1 : s ≤ 1 + κ) (hκ : 0 ≤ κ) :
    |lin v a s| ≤ (1 + 2 * κ) * c := by
  have hc : 0 ≤ c := (abs_nonneg _).trans h1
  have hw : |1 - s| + |s| ≤ 1 + 2 * κ := by
    rcases abs_cases (1 - s) with ⟨e, _⟩ | ⟨e, _⟩ <;> rcases abs_cases s with ⟨e', _⟩ | ⟨e', _⟩ <;> rw [e, e'] <;> linarith
  have b1 : |(1 - s) * v a| ≤ |1 - s| * c := by rw [abs_mul]; exact mul_le_mul_of_nonneg_left h1 (abs_nonneg _)
  have b2 : |s * v (a + 1)| ≤ |s| * c := by rw [abs_mul]; exact mul_le_mul_of_nonneg_left h2 (abs_nonneg _)
  have := abs_add_le ((1 - s) * v a) (s * v (a + 1))
  have := mul_le_mul_of_nonneg_right hw hc
  unfold lin
  linarith

/-- The bilinear form that `interpAt` evaluates. -/
def bil (m : Mat) (i j : ℕ) (s t : ℝ) : ℝ := lin (fun a => lin (fun b => m.entry a b) j t) i s

theorem bil_eq (m : Mat) (i j : ℕ) (s t : ℝ) : bil m i j s t =
    (1 - s) * (1 - t) * m.entry i j + (1 - s) * t * m.entry i (j + 1) + s * (1 - t) * m.entry (i + 1) j +
      s * t * m.entry (i + 1) (j + 1) := by
  unfold bil lin; ring

namespace Spec

/-- Neighbouring values of a table differ by at most `D`. -/
def NeighboursWithin (m : Mat) (N1 N2 : ℕ) (D : ℝ) : Prop :=
  (∀ i j, i + 1 < N1 → j < N2 → |m.entry (i + 1) j - m.entry i j| ≤ D) ∧
  ∀ i j, i < N1 → j + 1 < N2 → |m.entry i (j + 1) - m.entry i j| ≤ D

end Spec

theorem bil_lipschitz {m : Mat} {N1 N2 : ℕ} {D : ℝ} (hm : Spec.NeighboursWithin m N1 N2 D) {i j i' j' : ℕ} (hi : i + 1 < N1)
    (hj : j + 1 < N2) (hi' : i' + 1 < N1) (hj' : j' + 1 < N2) {s t s' t' : ℝ} (s0 : 0 ≤ s) (s1 : s ≤ 1) (t0 : 0 ≤ t) (t1 : t ≤ 1)
    (s0' : 0 ≤ s') (s1' : s' ≤ 1) (t0' : 0 ≤ t') (t1' : t' ≤ 1) :
    |bil m i j s t - bil m i' j' s' t'| ≤ D * (|((i : ℝ) + s) - (i' + s')| + |((j : ℝ) + t) - (j' + t')|) := by
  have h1 : |bil m i j s t - bil m i' j s' t| ≤ D * |((i : ℝ) + s) - (i' + s')| := by
    refine lin_lipschitz (N := N1) ?_ hi hi' s0 s1 s0' s1'
    intro k hk
    have e : lin (fun b => m.entry (k + 1) b) j t - lin (fun b => m.entry k b) j t =
        lin (fun b => m.entry (k + 1) b - m.entry k b) j t := by unfold lin; ring
    rw [e]
    have := lin_abs_le (v := fun b => m.entry (k + 1) b - m.entry k b) (s := t) (κ := 0) (hm.1 k j hk (by omega)) (hm.1 k (j + 1) hk hj)
      (by linarith) (by linarith) le_rfl
    linarith
  have h2 : |bil m i' j s' t - bil m i' j' s' t'| ≤ D * |((j : ℝ) + t) - (j' + t')| := by
    have e : bil m i' j s' t - bil m i' j' s' t' =
        lin (fun a => lin (fun b => m.entry a b) j t - lin (fun b => m.entry a b) j' t') i' s' := by unfold bil lin; ring
    rw [e]
    have r : ∀ a < N1, |lin (fun b => m.entry a b) j t - lin (fun b => m.entry a b) j' t'| ≤ D * |((j : ℝ) + t) - (j' + t')| :=
      fun a ha => lin_lipschitz (N := N2) (fun k hk => hm.2 a k ha hk) hj hj' t0 t1 t0' t1'
    have := lin_abs_le (v := fun a => lin (fun b => m.entry a b) j t - lin (fun b => m.entry a b) j' t') (s := s') (κ := 0)
      (r i' (by omega)) (r (i' + 1) hi') (by linarith) (by linarith) le_rfl
    linarith
  have := abs_add_le (bil m i j s t - bil m i' j s' t) (bil m i' j s' t - bil m i' j' s' t')
  rw [sub_add_sub_cancel] at this
  linarith

theorem grid_position {L : ℝ} {N : ℕ} (hL : 0 < L) (hN : 2 ≤ N) {z : ℝ} (hz : 0 ≤ z) (hz' : z ≤ L - L / N) :
    ∃ (a : ℕ) (s : ℝ), a + 1 < N ∧ 0 ≤ s ∧ s ≤ 1 ∧ z = ((a : ℝ) + s) * (L / N) := by
  have hN0 : (0 : ℝ) < N := by exact_mod_cast (by omega : 0 < N)
  have hd : 0 < L / N := div_pos hL hN0
  have hq : 0 ≤ z / (L / N) := by positivity
  have hf := Nat.floor_le hq
  have hf' := Nat.lt_floor_add_one (z / (L / N))
  have hup : z / (L / N) ≤ (N : ℝ) - 1 := by
    rw [div_le_iff₀ hd, sub_mul, mul_div_cancel₀ _ hN0.ne', one_mul]; exact hz'
  have hzz : z = z / (L / N) * (L / N) := by field_simp
  by_cases h : ⌊z / (L / N)⌋₊ + 1 < N
  · exact ⟨_, z / (L / N) - ⌊z / (L / N)⌋₊, h, by linarith, by linarith, by rw [add_sub_cancel]; exact hzz⟩
  · have hge : ((N - 1 : ℕ) : ℝ) ≤ ⌊z / (L / N)⌋₊ := by exact_mod_cast (by omega : N - 1 ≤ ⌊z / (L / N)⌋₊)
    rw [Nat.cast_sub (by omega), Nat.cast_one] at hge
    have : z / (L / N) = N - 1 := le_antisymm hup (hge.trans hf)
    refine ⟨N - 2, 1, by omega, by norm_num, le_rfl, ?_⟩
    rw [Nat.cast_sub (by omega)]
    rw [hzz, this]
    push_cast
    ring

/-- **C150** Between the first and the last nodes the interpolated field is continuous: two points differ by at most the largest
difference of neighbouring grid values times their distance in cells. -/
theorem C150_lipschitz {L1 L2 : ℝ} {N1 N2 : ℕ} (hL1 : 0 < L1) (hL2 : 0 < L2) (hN1 : 2 ≤ N1) (hN2 : 2 ≤ N2) {m : Mat} {D : ℝ}
    (hm : Spec.NeighboursWithin m N1 N2 D) {x y x' y' : ℝ} (x0 : 0 ≤ x) (x1 : x ≤ L1 - L1 / N1) (y0 : 0 ≤ y) (y1 : y ≤ L2 - L2 / N2)
    (x0' : 0 ≤ x') (x1' : x' ≤ L1 - L1 / N1) (y0' : 0 ≤ y') (y1' : y' ≤ L2 - L2 / N2) :
    |interpAt (lfCoords L1 N1) (lfCoords L2 N2) m x y - interpAt (lfCoords L1 N1) (lfCoords L2 N2) m x' y'| ≤
      D * (|x - x'| / (L1 / N1) + |y - y'| / (L2 / N2)) := by
  have d1 : 0 < L1 / N1 := div_pos hL1 (by exact_mod_cast (by omega : 0 < N1))
  have d2 : 0 < L2 / N2 := div_pos hL2 (by exact_mod_cast (by omega : 0 < N2))
  obtain ⟨i, s, hi, s0, s1, rfl⟩ := grid_position hL1 hN1 x0 x1
  obtain ⟨j, t, hj, t0, t1, rfl⟩ := grid_position hL2 hN2 y0 y1
  obtain ⟨i', s', hi', s0', s1', rfl⟩ := grid_position hL1 hN1 x0' x1'
  obtain ⟨j', t', hj', t0', t1', rfl⟩ := grid_position hL2 hN2 y0' y1'
  rw [C72_bilinear hL1 hL2 m hi hj s0 s1 t0 t1, C72_bilinear hL1 hL2 m hi' hj' s0' s1' t0' t1', ← bil_eq, ← bil_eq]
  have e : ∀ {d a b : ℝ}, 0 < d → |a * d - b * d| / d = |a - b| := by
    intro d a b hd
    rw [← sub_mul, abs_mul, abs_of_pos hd, mul_div_cancel_right₀ _ hd.ne']
  rw [e d1, e d2]
  exact bil_lipschitz hm hi hj hi' hj' s0 s1 t0 t1 s0' s1' t0' t1'

/-! ### Rounding errors -/

/-- Counting a downward closed set of indices. -/
theorem countP_downward {p : ℕ → Bool} (hp : ∀ i j, i ≤ j → p j = true → p i = true) (N : ℕ) :
    (List.range N).countP p ≤ N ∧ ∀ i < N, p i = true ↔ i < (List.range N).countP p := by
  induction N with
  | zero => simp
  | succ n ih =>
    obtain ⟨h1, h2⟩ := ih
    rw [List.range_succ, List.countP_append, List.countP_singleton]
    by_cases h : p n = true
    · have hall : (List.range n).countP p = n := by
        by_contra hne
        have hlt : (List.range n).countP p < n := by omega
        exact lt_irrefl _ ((h2 _ hlt).1 (hp _ n hlt.le h))
      rw [if_pos h, hall]
      exact ⟨le_rfl, fun i hi => ⟨fun _ => hi, fun _ => hp i n (by omega) h⟩⟩
    · rw [if_neg h, add_zero]
      refine ⟨by omega, fun i hi => ?_⟩
      rcases Nat.lt_succ_iff_lt_or_eq.1 hi with hlt | rfl
      · exact h2 i hlt
      · exact ⟨fun hh => absurd hh h, fun hh => by omega⟩

/-- The interval that scipy finds contains the point. -/
theorem findInterval_mem {f : ℕ → ℝ} (N : ℕ) (hN : 2 ≤ N) (hf : ∀ i, i + 1 < N → f i ≤ f (i + 1)) {x : ℝ}
    (h0 : f 0 ≤ x) (h1 : x ≤ f (N - 1)) :
    let i := findInterval ((List.range N).map f) x
    i + 1 < N ∧ f i ≤ x ∧ x ≤ f (i + 1) := by
  intro i
  obtain ⟨g, hg, hge⟩ : ∃ g : ℕ → ℝ, Monotone g ∧ ∀ i < N, g i = f i := by
    refine ⟨fun i => f (min i (N - 1)), monotone_nat_of_le_succ fun i => ?_, fun i hi => by
      change f (min i (N - 1)) = f i
      rw [min_eq_left (by omega)]⟩
    by_cases h : i + 1 < N
    · change f (min i (N - 1)) ≤ f (min (i + 1) (N - 1))
      rw [min_eq_left (by omega), min_eq_left (by omega)]
      exact hf i h
    · change f (min i (N - 1)) ≤ f (min (i + 1) (N - 1))
      rw [min_eq_right (by omega : N - 1 ≤ i), min_eq_right (by omega : N - 1 ≤ i + 1)]
  have hi : i = min ((List.range N).countP (fun k => decide (g k ≤ x)) - 1) (N - 2) := by
    change min _ _ = _
    rw [List.countP_map, List.length_map, List.length_range]
    congr 2
    refine List.countP_congr fun k hk => ?_
    simp only [Function.comp, hge k (List.mem_range.1 hk)]
  obtain ⟨c1, c2⟩ := countP_downward (p := fun k => decide (g k ≤ x)) (fun a b hab h => by
    simp only [decide_eq_true_eq] at h ⊢
    exact (hg hab).trans h) N
  obtain ⟨c, hc⟩ : ∃ c, c = (List.range N).countP (fun k => decide (g k ≤ x)) := ⟨_, rfl⟩
  rw [← hc] at hi c1 c2
  simp only [decide_eq_true_eq] at c2
  have c0 : 0 < c := (c2 0 (by omega)).1 (by rw [hge 0 (by omega)]; exact h0)
  have hlt : i + 1 < N := by omega
  refine ⟨hlt, ?_, ?_⟩
  · rw [← hge i (by omega)]
    exact (c2 i (by omega)).2 (by omega)
  · by_cases h : i + 1 < c
    · have : i = N - 2 := by omega
      have e : i + 1 = N - 1 := by omega
      rw [e]; exact h1
    · rw [← hge (i + 1) hlt]
      by_contra hh
      exact h ((c2 (i + 1) hlt).1 (not_le.1 hh).le)

/-- One axis: the computed interval and weight are those of a point close to the exact one. -/
theorem Fmt.axis_near (A : Fmt) {f : ℕ → ℝ} {N : ℕ} (hN : 2 ≤ N) {h δ x x' : ℝ} (hh : 0 < h) (hδ : δ < 1 / 2)
    (hf : ∀ i < N, |f i - i * h| ≤ δ * h) (hx : |x' - x| ≤ δ * h) (h0 : f 0 ≤ x') (h1 : x' ≤ f (N - 1)) :
    let i := findInterval ((List.range N).map f) x'
    ∃ r, i + 1 < N ∧ 0 ≤ r ∧ r ≤ 1 ∧ |((i : ℝ) + r) - x / h| ≤ 4 * δ ∧
      |A.interpWeight ((List.range N).map f) x' - r| ≤ Real.exp (3 * A.e) - 1 := by
  intro i
  have hmono : ∀ i, i + 1 < N → f i ≤ f (i + 1) := by
    intro i hi
    have a := abs_le.1 (hf i (by omega))
    have b := abs_le.1 (hf (i + 1) hi)
    push_cast at b
    nlinarith
  obtain ⟨hi, m0, m1⟩ := findInterval_mem N hN hmono h0 h1
  have a := abs_le.1 (hf i (by omega))
  have b := abs_le.1 (hf (i + 1) hi)
  have c := abs_le.1 hx
  push_cast at b
  have hb : 0 < f (i + 1) - f i := by nlinarith
  refine ⟨(x' - f i) / (f (i + 1) - f i), hi, div_nonneg (by linarith [m0]) hb.le, (div_le_one hb).2 (by linarith [m1]), ?_, ?_⟩
  · obtain ⟨r, hr⟩ : ∃ r, r = (x' - f i) / (f (i + 1) - f i) := ⟨_, rfl⟩
    have r0 : 0 ≤ r := by rw [hr]; exact div_nonneg (by linarith [m0]) hb.le
    have r1 : r ≤ 1 := by rw [hr]; exact (div_le_one hb).2 (by linarith [m1])
    have e : r * (f (i + 1) - f i) = x' - f i := by rw [hr]; field_simp
    rw [← hr]
    have key : |(((i : ℝ) + r) * h - x)| ≤ 4 * δ * h := by
      have e2 : ((i : ℝ) + r) * h - x = (i * h - f i) + (x' - x) - r * ((f (i + 1) - f i) - h) := by
        linear_combination e
      rw [e2]
      have d : |r * ((f (i + 1) - f i) - h)| ≤ 2 * δ * h := by
        rw [abs_mul, abs_of_nonneg r0]
        have : |(f (i + 1) - f i) - h| ≤ 2 * δ * h := abs_le.2 ⟨by nlinarith, by nlinarith⟩
        nlinarith [abs_nonneg ((f (i + 1) - f i) - h)]
      have d' := abs_le.1 d
      exact abs_le.2 ⟨by linarith, by linarith⟩
    rw [show ((i : ℝ) + r) - x / h = (((i : ℝ) + r) * h - x) / h by field_simp, abs_div, abs_of_pos hh, div_le_iff₀ hh]
    exact key
  · have g1 : ∀ k < N, ((List.range N).map f).getD k 0 = f k := by
      intro k hk
      simp [List.getD_eq_getElem?_getD, hk]
    have r1 : (x' - f i) / (f (i + 1) - f i) ≤ 1 := (div_le_one hb).2 (by linarith [m1])
    have r0 : 0 ≤ (x' - f i) / (f (i + 1) - f i) := div_nonneg (by linarith [m0]) hb.le
    change |A.div (A.sub x' (((List.range N).map f).getD i 0)) (A.sub (((List.range N).map f).getD (i + 1) 0)
      (((List.range N).map f).getD i 0)) - _| ≤ _
    rw [g1 i (by omega), g1 (i + 1) hi]
    have n := A.div_near (A.rnd_near (x' - f i)) (A.rnd_near (f (i + 1) - f i))
    have := n.sub_le
    rw [abs_of_nonneg r0, show A.e + A.e + A.e = 3 * A.e by ring] at this
    have p : 0 ≤ Real.exp (3 * A.e) - 1 := by
      have := Real.add_one_le_exp (3 * A.e)
      have := A.e_nonneg
      linarith
    exact this.trans (mul_le_of_le_one_left p r1)

/-- The weights of the four corners. -/
theorem bil_abs_le {m : Mat} {i j : ℕ} {s t c κ : ℝ} (h : ∀ a b, (a = i ∨ a = i + 1) → (b = j ∨ b = j + 1) → |m.entry a b| ≤ c)
    (s0 : -κ ≤ s) (s1 : s ≤ 1 + κ) (t0 : -κ ≤ t) (t1 : t ≤ 1 + κ) (hκ : 0 ≤ κ) :
    |(1 - s) * (1 - t) * m.entry i j| + |(1 - s) * t * m.entry i (j + 1)| + |s * (1 - t) * m.entry (i + 1) j| +
        |s * t * m.entry (i + 1) (j + 1)| ≤ (1 + 2 * κ) ^ 2 * c := by
  have hw : ∀ {s : ℝ}, -κ ≤ s → s ≤ 1 + κ → |1 - s| + |s| ≤ 1 + 2 * κ := by
    intro s s0 s1
    rcases abs_cases (1 - s) with ⟨e, _⟩ | ⟨e, _⟩ <;> rcases abs_cases s with ⟨e', _⟩ | ⟨e', _⟩ <;> rw [e, e'] <;> linarith
  have hc : 0 ≤ c := (abs_nonneg _).trans (h i j (Or.inl rfl) (Or.inl rfl))
  have one : ∀ (w : ℝ) {y : ℝ}, |y| ≤ c → |w * y| ≤ |w| * c := fun w y hy => by
    rw [abs_mul]; exact mul_le_mul_of_nonneg_left hy (abs_nonneg _)
  have q1 := one ((1 - s) * (1 - t)) (h i j (Or.inl rfl) (Or.inl rfl))
  have q2 := one ((1 - s) * t) (h i (j + 1) (Or.inl rfl) (Or.inr rfl))
  have q3 := one (s * (1 - t)) (h (i + 1) j (Or.inr rfl) (Or.inl rfl))
  have q4 := one (s * t) (h (i + 1) (j + 1) (Or.inr rfl) (Or.inr rfl))
  simp only [abs_mul] at q1 q2 q3 q4 ⊢
  have w := mul_le_mul (hw s0 s1) (hw t0 t1) (by positivity) (by linarith)
  have w' := mul_le_mul_of_nonneg_right w hc
  have e : (|1 - s| + |s|) * (|1 - t| + |t|) * c =
    |1 - s| * |1 - t| * c + |1 - s| * |t| * c + |s| * |1 - t| * c + |s| * |t| * c := by ring
  rw [e] at w'
  rw [pow_two]
  linarith

/-- **C150** The interpolated value in floating point arithmetic.  Let nodes and points be off by at most `δ` cells, the values on the
grid by at most `μ`, and scipy's sum be accurate to `ε`.  At every point that lies between the first and the last nodes, for the exact
as for the computed coordinates, the computed value is within `(1 + 2κ)² (μ + ε (M + μ)) + D (4 (δ1 + δ2) + 2κ + 2κ²)` of the exact
one, `κ = exp (3 e) - 1`, where `M` bounds the values on the grid and `D` the differences of neighbours. -/
theorem C150_value (A : Fmt) {L1 L2 L1' L2' : ℝ} {N1 N2 : ℕ} (hL1 : 0 < L1) (hL2 : 0 < L2) (hN1 : 2 ≤ N1) (hN2 : 2 ≤ N2)
    {m m' : Mat} {D M μ δ1 δ2 ε : ℝ} (hm : Spec.NeighboursWithin m N1 N2 D) (hM : ∀ i < N1, ∀ j < N2, |m.entry i j| ≤ M)
    (hμ : ∀ i < N1, ∀ j < N2, |m'.entry i j - m.entry i j| ≤ μ) (hδ1 : δ1 < 1 / 2) (hδ2 : δ2 < 1 / 2) (hε : 0 ≤ ε)
    (g1 : ∀ i < N1, |A.linspaceOpen 0 L1' N1 i - i * (L1 / N1)| ≤ δ1 * (L1 / N1))
    (g2 : ∀ j < N2, |A.linspaceOpen 0 L2' N2 j - j * (L2 / N2)| ≤ δ2 * (L2 / N2)) {x y x' y' v : ℝ}
    (hx : |x' - x| ≤ δ1 * (L1 / N1)) (hy : |y' - y| ≤ δ2 * (L2 / N2))
    (x0 : 0 ≤ x) (x1 : x ≤ L1 - L1 / N1) (y0 : 0 ≤ y) (y1 : y ≤ L2 - L2 / N2)
    (x0' : A.linspaceOpen 0 L1' N1 0 ≤ x') (x1' : x' ≤ A.linspaceOpen 0 L1' N1 (N1 - 1))
    (y0' : A.linspaceOpen 0 L2' N2 0 ≤ y') (y1' : y' ≤ A.linspaceOpen 0 L2' N2 (N2 - 1))
    (hv : A.InterpOf (A.lowCoords L1' N1) (A.lowCoords L2' N2) m' x' y' ε v) :
    let κ := Real.exp (3 * A.e) - 1
    |v - interpAt (lfCoords L1 N1) (lfCoords L2 N2) m x y| ≤
      (1 + 2 * κ) ^ 2 * (μ + ε * (M + μ)) + D * (4 * (δ1 + δ2) + 2 * κ + 2 * κ ^ 2) := by
  intro κ
  have q1 : (0 : ℝ) < N1 := by exact_mod_cast (by omega : 0 < N1)
  have q2 : (0 : ℝ) < N2 := by exact_mod_cast (by omega : 0 < N2)
  have d1 : 0 < L1 / N1 := div_pos hL1 q1
  have d2 : 0 < L2 / N2 := div_pos hL2 q2
  have hκ : 0 ≤ κ := by
    have := Real.add_one_le_exp (3 * A.e)
    have := A.e_nonneg
    change 0 ≤ Real.exp (3 * A.e) - 1
    linarith
  have hD : 0 ≤ D := (abs_nonneg _).trans (hm.1 0 0 (by omega) (by omega))
  have head : ∀ {f : ℕ → ℝ} {N : ℕ}, 0 < N → ((List.range N).map f).headD 0 = f 0 := by
    intro f N h
    obtain ⟨n, rfl⟩ := Nat.exists_eq_succ_of_ne_zero h.ne'
    simp [List.range_succ_eq_map]
  have last : ∀ {f : ℕ → ℝ} {N : ℕ}, 0 < N → ((List.range N).map f).getLastD 0 = f (N - 1) := by
    intro f N h
    obtain ⟨n, rfl⟩ := Nat.exists_eq_succ_of_ne_zero h.ne'
    simp [List.range_succ]
  unfold Fmt.InterpOf at hv
  rw [if_neg (by
    unfold Fmt.lowCoords
    rw [head (by omega), head (by omega), last (by omega), last (by omega)]
    push Not
    exact ⟨x0', x1', y0', y1'⟩)] at hv
  obtain ⟨r, hi, r0, r1, pr, wr⟩ := A.axis_near hN1 d1 hδ1 g1 hx x0' x1'
  obtain ⟨p, hj, p0, p1, pp, wp⟩ := A.axis_near hN2 d2 hδ2 g2 hy y0' y1'
  change |A.interpWeight (A.lowCoords L1' N1) x' - r| ≤ κ at wr
  change |A.interpWeight (A.lowCoords L2' N2) y' - p| ≤ κ at wp
  obtain ⟨i, ei⟩ : ∃ i, i = findInterval (A.lowCoords L1' N1) x' := ⟨_, rfl⟩
  obtain ⟨j, ej⟩ : ∃ j, j = findInterval (A.lowCoords L2' N2) y' := ⟨_, rfl⟩
  obtain ⟨s, es⟩ : ∃ s, s = A.interpWeight (A.lowCoords L1' N1) x' := ⟨_, rfl⟩
  obtain ⟨t, et⟩ : ∃ t, t = A.interpWeight (A.lowCoords L2' N2) y' := ⟨_, rfl⟩
  change findInterval (A.lowCoords L1' N1) x' + 1 < N1 at hi
  change findInterval (A.lowCoords L2' N2) y' + 1 < N2 at hj
  change |((findInterval (A.lowCoords L1' N1) x' : ℕ) + r) - x / (L1 / N1)| ≤ 4 * δ1 at pr
  change |((findInterval (A.lowCoords L2' N2) y' : ℕ) + p) - y / (L2 / N2)| ≤ 4 * δ2 at pp
  simp only [← ei, ← ej, ← es, ← et] at hv hi hj pr pp wr wp
  have ws := abs_le.1 wr
  have wt := abs_le.1 wp
  have s0 : -κ ≤ s := by linarith
  have s1 : s ≤ 1 + κ := by linarith
  have t0 : -κ ≤ t := by linarith
  have t1 : t ≤ 1 + κ := by linarith
  -- the sum of products
  have b1 : |v - bil m' i j s t| ≤ (1 + 2 * κ) ^ 2 * (ε * (M + μ)) := by
    rw [bil_eq]
    refine hv.trans ?_
    have := bil_abs_le (m := m') (i := i) (j := j) (c := M + μ) (fun a b ha hb => by
      have ha' : a < N1 := by omega
      have hb' : b < N2 := by omega
      have u1 := hM a ha' b hb'
      have u2 := hμ a ha' b hb'
      have := abs_add_le (m.entry a b) (m'.entry a b - m.entry a b)
      rw [add_sub_cancel] at this
      linarith) s0 s1 t0 t1 hκ
    have := mul_le_mul_of_nonneg_left this hε
    linarith
  -- the values on the grid
  have b2 : |bil m' i j s t - bil m i j s t| ≤ (1 + 2 * κ) ^ 2 * μ := by
    have e : bil m' i j s t - bil m i j s t = lin (fun a => lin (fun b => m'.entry a b - m.entry a b) j t) i s := by
      unfold bil lin; ring
    rw [e, pow_two, mul_assoc]
    have row : ∀ a < N1, |lin (fun b => m'.entry a b - m.entry a b) j t| ≤ (1 + 2 * κ) * μ := fun a ha =>
      lin_abs_le (v := fun b => m'.entry a b - m.entry a b) (hμ a ha j (by omega)) (hμ a ha (j + 1) hj) t0 t1 hκ
    exact lin_abs_le (v := fun a => lin (fun b => m'.entry a b - m.entry a b) j t) (row i (by omega)) (row (i + 1) hi) s0 s1 hκ
  -- the weights
  have b3 : |bil m i j s t - bil m i j s p| ≤ (1 + 2 * κ) * (κ * D) := by
    have e : bil m i j s t - bil m i j s p = lin (fun a => lin (fun b => m.entry a b) j t - lin (fun b => m.entry a b) j p) i s := by
      unfold bil lin; ring
    rw [e]
    have row : ∀ a < N1, |lin (fun b => m.entry a b) j t - lin (fun b => m.entry a b) j p| ≤ κ * D := by
      intro a ha
      rw [lin_sub, abs_mul]
      exact mul_le_mul wp (hm.2 a j ha hj) (abs_nonneg _) hκ
    exact lin_abs_le (v := fun a => lin (fun b => m.entry a b) j t - lin (fun b => m.entry a b) j p) (row i (by omega)) (row (i + 1) hi) s0 s1 hκ
  have b4 : |bil m i j s p - bil m i j r p| ≤ κ * D := by
    change |lin _ i s - lin _ i r| ≤ _
    rw [lin_sub, abs_mul]
    refine mul_le_mul wr ?_ (abs_nonneg _) hκ
    have e : lin (fun b => m.entry (i + 1) b) j p - lin (fun b => m.entry i b) j p =
        lin (fun b => m.entry (i + 1) b - m.entry i b) j p := by unfold lin; ring
    rw [e]
    have := lin_abs_le (v := fun b => m.entry (i + 1) b - m.entry i b) (s := p) (κ := 0) (hm.1 i j hi (by omega)) (hm.1 i (j + 1) hi hj)
      (by linarith) (by linarith) le_rfl
    linarith
  -- the position
  have b5 : |bil m i j r p - interpAt (lfCoords L1 N1) (lfCoords L2 N2) m x y| ≤ D * (4 * δ1 + 4 * δ2) := by
    obtain ⟨a, σ, ha, σ0, σ1, rfl⟩ := grid_position hL1 hN1 x0 x1
    obtain ⟨b, τ, hb, τ0, τ1, rfl⟩ := grid_position hL2 hN2 y0 y1
    rw [C72_bilinear hL1 hL2 m ha hb σ0 σ1 τ0 τ1, ← bil_eq]
    rw [mul_div_cancel_right₀ _ d1.ne'] at pr
    rw [mul_div_cancel_right₀ _ d2.ne'] at pp
    exact (bil_lipschitz hm hi hj ha hb r0 r1 p0 p1 σ0 σ1 τ0 τ1).trans (mul_le_mul_of_nonneg_left (add_le_add pr pp) hD)
  have c1 := abs_le.1 b1
  have c2 := abs_le.1 b2
  have c3 := abs_le.1 b3
  have c4 := abs_le.1 b4
  have c5 := abs_le.1 b5
  have e : (1 + 2 * κ) ^ 2 * (μ + ε * (M + μ)) + D * (4 * (δ1 + δ2) + 2 * κ + 2 * κ ^ 2) =
      (1 + 2 * κ) ^ 2 * (ε * (M + μ)) + (1 + 2 * κ) ^ 2 * μ + (1 + 2 * κ) * (κ * D) + κ * D + D * (4 * δ1 + 4 * δ2) := by ring
  rw [e]
  exact abs_le.2 ⟨by linarith, by linarith⟩

/-! ### The coordinates -/

theorem Fmt.rnd_abs (A : Fmt) {y z a B : ℝ} (h : |y - z| ≤ a) (hB : |z| ≤ B) : |A.rnd y - z| ≤ a + A.e * (B + a) := by
  have h1 := A.err y
  have h2 : |y| ≤ B + a := by
    have := abs_add_le (y - z) z
    rw [sub_add_cancel] at this
    linarith
  have h3 : A.u * |y| ≤ A.e * (B + a) := mul_le_mul A.u_le_e h2 (abs_nonneg _) A.e_nonneg
  have := abs_add_le (A.rnd y - y) (y - z)
  rw [sub_add_sub_cancel] at this
  linarith

/-- **C150** `np.linspace(start, stop, n, endpoint=False)` with end points computed to within four units: every entry is within 17
units. -/
theorem C150_linspace (A : Fmt) (he : A.e ≤ 1 / 100) {start stop start' stop' X : ℝ} (h1 : |start' - start| ≤ 4 * A.e * X)
    (h2 : |stop' - stop| ≤ 4 * A.e * X) (b1 : |start| ≤ X) (b2 : |stop| ≤ X) (b3 : |stop - start| ≤ X) {n j : ℕ} (hn : 0 < n) (hj : j ≤ n) :
    |A.linspaceOpen start' stop' n j - (start + j * ((stop - start) / n))| ≤ 17 * A.e * X := by
  have e0 := A.e_nonneg
  have X0 : 0 ≤ X := (abs_nonneg _).trans b1
  have n0 : (0 : ℝ) < n := by exact_mod_cast hn
  have j0 : (0 : ℝ) ≤ j := Nat.cast_nonneg j
  have jn : (j : ℝ) ≤ n := by exact_mod_cast hj
  have eX : 0 ≤ A.e * X := mul_nonneg e0 X0
  have eeX : A.e * (A.e * X) ≤ 1 / 100 * (A.e * X) := mul_le_mul_of_nonneg_right he eX
  have k1 : |A.sub stop' start' - (stop - start)| ≤ 9.1 * (A.e * X) := by
    have : |(stop' - start') - (stop - start)| ≤ 8 * (A.e * X) := by
      rw [show (stop' - start') - (stop - start) = (stop' - stop) - (start' - start) by ring]
      have := abs_sub (stop' - stop) (start' - start)
      linarith
    have := A.rnd_abs this b3
    unfold Fmt.sub
    linarith
  have k2 : |A.div (A.sub stop' start') n - (stop - start) / n| ≤ 10.3 * (A.e * X) / n := by
    have a : |A.sub stop' start' / n - (stop - start) / n| ≤ 9.1 * (A.e * X) / n := by
      rw [← sub_div, abs_div, abs_of_pos n0]
      exact div_le_div_of_nonneg_right k1 n0.le
    have b : |(stop - start) / n| ≤ X / n := by
      rw [abs_div, abs_of_pos n0]
      exact div_le_div_of_nonneg_right b3 n0.le
    have := A.rnd_abs a b
    unfold Fmt.div
    refine this.trans ?_
    rw [show 9.1 * (A.e * X) / n + A.e * (X / n + 9.1 * (A.e * X) / n) =
      (9.1 * (A.e * X) + A.e * X + 9.1 * (A.e * (A.e * X))) / n by ring]
    exact div_le_div_of_nonneg_right (by linarith) n0.le
  have frac : (j : ℝ) / n ≤ 1 := (div_le_one n0).2 jn
  have k3 : |A.mul j (A.div (A.sub stop' start') n) - j * ((stop - start) / n)| ≤ 11.5 * (A.e * X) := by
    have a : |j * A.div (A.sub stop' start') n - j * ((stop - start) / n)| ≤ 10.3 * (A.e * X) := by
      rw [← mul_sub, abs_mul, abs_of_nonneg j0]
      calc j * _ ≤ j * (10.3 * (A.e * X) / n) := mul_le_mul_of_nonneg_left k2 j0
        _ = (j : ℝ) / n * (10.3 * (A.e * X)) := by ring
        _ ≤ 1 * (10.3 * (A.e * X)) := mul_le_mul_of_nonneg_right frac (by linarith)
        _ = _ := one_mul _
    have b : |j * ((stop - start) / n)| ≤ X := by
      rw [show (j : ℝ) * ((stop - start) / n) = (j : ℝ) / n * (stop - start) by ring, abs_mul, abs_of_nonneg (by positivity)]
      exact (mul_le_of_le_one_left (abs_nonneg _) frac).trans b3
    have := A.rnd_abs a b
    unfold Fmt.mul at *
    linarith
  have a : |(A.mul j (A.div (A.sub stop' start') n) + start') - (start + j * ((stop - start) / n))| ≤ 15.5 * (A.e * X) := by
    rw [show (A.mul j (A.div (A.sub stop' start') n) + start') - (start + j * ((stop - start) / n)) =
      (A.mul j (A.div (A.sub stop' start') n) - j * ((stop - start) / n)) + (start' - start) by ring]
    have := abs_add_le (A.mul j (A.div (A.sub stop' start') n) - j * ((stop - start) / n)) (start' - start)
    linarith
  have b : |start + j * ((stop - start) / n)| ≤ X := by
    rw [show start + (j : ℝ) * ((stop - start) / n) = (1 - (j : ℝ) / n) * start + (j : ℝ) / n * stop by ring]
    have := abs_add_le ((1 - (j : ℝ) / n) * start) ((j : ℝ) / n * stop)
    rw [abs_mul, abs_mul, abs_of_nonneg (by linarith : 0 ≤ 1 - (j : ℝ) / n), abs_of_nonneg (by positivity : 0 ≤ (j : ℝ) / n)] at this
    have := mul_le_mul_of_nonneg_left b1 (by linarith : 0 ≤ 1 - (j : ℝ) / n)
    have := mul_le_mul_of_nonneg_left b2 (by positivity : 0 ≤ (j : ℝ) / n)
    linarith
  have := A.rnd_abs a b
  unfold Fmt.linspaceOpen Fmt.add
  linarith

/-- **C150** The coordinates that `generate` and `interp_slice` work with: the nodes are off by at most `17 e` times the extent, the
places of the planes of block `i` by `17 e` times the end of the block, the lateral places by `17 e` times the two widths. -/
theorem C150_coordinates (A : Fmt) (he : A.e ≤ 1 / 100) {g : Gen} (hd1 : 0 < g.d1) (hd2 : 0 < g.d2) {lf : LowFreq} (hL1 : 0 < lf.userL1)
    (hL2 : 0 < lf.userL2) {L1 L2 : ℝ} (h1 : |L1 - lf.userL1| ≤ A.e * lf.userL1) (h2 : |L2 - lf.userL2| ≤ A.e * lf.userL2) :
    (∀ i < lf.userN1, |A.linspaceOpen 0 L1 lf.userN1 i - (lfCoords lf.userL1 lf.userN1).getD i 0| ≤ 17 * A.e * lf.userL1) ∧
    (∀ j < lf.userN2, |A.linspaceOpen 0 L2 lf.userN2 j - (lfCoords lf.userL2 lf.userN2).getD j 0| ≤ 17 * A.e * lf.userL2) ∧
    (∀ i nx j, j < nx → |A.xTarget g i nx j - (g.xTargets i nx).getD j 0| ≤ 17 * A.e * (i * g.d1 + g.d1 * (nx / g.Nx))) ∧
    ∀ b < g.Ny, |A.yTarget g L2 b - (g.yTargets lf).getD b 0| ≤ 17 * A.e * (lf.userL2 + g.d2) := by
  have e0 := A.e_nonneg
  have nodes : ∀ {L L' : ℝ} {N : ℕ}, 0 < L → |L' - L| ≤ A.e * L → ∀ i < N,
      |A.linspaceOpen 0 L' N i - (lfCoords L N).getD i 0| ≤ 17 * A.e * L := by
    intro L L' N hL h i hi
    have eL : 0 ≤ A.e * L := mul_nonneg e0 hL.le
    have := C150_linspace A he (start := 0) (start' := 0) (stop := L) (stop' := L') (X := L) (by rw [sub_self, abs_zero]; linarith)
      (by linarith) (by rw [abs_zero]; exact hL.le) (abs_of_pos hL).le (by rw [sub_zero]; exact (abs_of_pos hL).le) (by omega : 0 < N) hi.le
    rwa [sub_zero, zero_add, ← lfCoords_getD hi] at this
  refine ⟨nodes hL1 h1, nodes hL2 h2, ?_, ?_⟩
  · intro i nx j hj
    have hN : (0 : ℝ) < g.Nx := by unfold Gen.Nx; positivity
    have hq : (0 : ℝ) ≤ (nx : ℝ) / g.Nx := by positivity
    unfold Gen.xTargets Fmt.xTarget
    simp only
    rw [tab_getD _ hj]
    obtain ⟨l, hl⟩ : ∃ l, l = g.d1 * ((nx : ℝ) / g.Nx) := ⟨_, rfl⟩
    obtain ⟨x, hx⟩ : ∃ x, x = (i : ℝ) * g.d1 := ⟨_, rfl⟩
    have l0 : 0 ≤ l := by rw [hl]; positivity
    have x0 : 0 ≤ x := by rw [hx]; positivity
    have el : 0 ≤ A.e * l := mul_nonneg e0 l0
    have ex : 0 ≤ A.e * x := mul_nonneg e0 x0
    have sx : |A.mul i g.d1 - x| ≤ A.e * x := by
      have := A.rnd_abs (y := x) (z := x) (a := 0) (B := x) (by simp) (abs_of_nonneg x0).le
      rw [hx] at this ⊢
      unfold Fmt.mul
      linarith
    have sl : |A.mul g.d1 (A.div nx g.Nx) - l| ≤ 2.01 * (A.e * l) := by
      have a : |g.d1 * A.div nx g.Nx - l| ≤ A.e * l := by
        have := A.rnd_abs (y := (nx : ℝ) / g.Nx) (z := (nx : ℝ) / g.Nx) (a := 0) (B := (nx : ℝ) / g.Nx) (by simp) (abs_of_nonneg hq).le
        rw [hl, ← mul_sub, abs_mul, abs_of_pos hd1]
        calc g.d1 * _ ≤ g.d1 * (A.e * ((nx : ℝ) / g.Nx)) := mul_le_mul_of_nonneg_left (by unfold Fmt.div; linarith) hd1.le
          _ = _ := by ring
      have := A.rnd_abs a (abs_of_nonneg l0).le
      have : A.e * (A.e * l) ≤ 1 / 100 * (A.e * l) := mul_le_mul_of_nonneg_right he el
      unfold Fmt.mul at *
      linarith
    have se : |A.add (A.mul i g.d1) (A.mul g.d1 (A.div nx g.Nx)) - (x + l)| ≤ 4 * A.e * (x + l) := by
      have a : |(A.mul i g.d1 + A.mul g.d1 (A.div nx g.Nx)) - (x + l)| ≤ A.e * x + 2.01 * (A.e * l) := by
        rw [add_sub_add_comm]
        exact (abs_add_le _ _).trans (add_le_add sx sl)
      have := A.rnd_abs a (abs_of_nonneg (by linarith : 0 ≤ x + l)).le
      have : A.e * (A.e * l) ≤ 1 / 100 * (A.e * l) := mul_le_mul_of_nonneg_right he el
      have : A.e * (A.e * x) ≤ 1 / 100 * (A.e * x) := mul_le_mul_of_nonneg_right he ex
      unfold Fmt.add
      linarith
    rw [← hx, ← hl]
    exact C150_linspace A he (by linarith) se (by rw [abs_of_nonneg x0]; linarith) (abs_of_nonneg (by linarith)).le
      (by rw [add_sub_cancel_left, abs_of_nonneg l0]; linarith) (by omega) hj.le
  · intro b hb
    unfold Gen.yTargets Fmt.yTarget
    simp only
    rw [tab_getD _ hb]
    obtain ⟨L, hL⟩ : ∃ L, L = lf.userL2 := ⟨_, rfl⟩
    rw [← hL] at hL2 h2 ⊢
    have eL : 0 ≤ A.e * L := mul_nonneg e0 hL2.le
    have ed : 0 ≤ A.e * g.d2 := mul_nonneg e0 hd2.le
    have eeL : A.e * (A.e * L) ≤ 1 / 100 * (A.e * L) := mul_le_mul_of_nonneg_right he eL
    have eed : A.e * (A.e * g.d2) ≤ 1 / 100 * (A.e * g.d2) := mul_le_mul_of_nonneg_right he ed
    have sc : |A.div L2 2 - L / 2| ≤ 1.01 * (A.e * L) := by
      have a : |L2 / 2 - L / 2| ≤ A.e * L / 2 := by
        rw [← sub_div, abs_div, abs_two]
        exact div_le_div_of_nonneg_right h2 (by norm_num)
      have := A.rnd_abs a (abs_of_pos (by linarith : 0 < L / 2)).le
      unfold Fmt.div
      linarith
    have sh : |A.div g.d2 2 - g.d2 / 2| ≤ A.e * g.d2 / 2 := by
      have := A.rnd_abs (y := g.d2 / 2) (z := g.d2 / 2) (a := 0) (B := g.d2 / 2) (by simp) (abs_of_pos (by linarith : 0 < g.d2 / 2)).le
      unfold Fmt.div
      linarith
    have ss : |A.sub (A.div L2 2) (A.div g.d2 2) - (L / 2 - g.d2 / 2)| ≤ 4 * A.e * (L + g.d2) := by
      have a : |(A.div L2 2 - A.div g.d2 2) - (L / 2 - g.d2 / 2)| ≤ 1.01 * (A.e * L) + A.e * g.d2 / 2 := by
        rw [sub_sub_sub_comm]
        exact (abs_sub _ _).trans (add_le_add sc sh)
      have := A.rnd_abs a (abs_le.2 ⟨by linarith, by linarith⟩ : |L / 2 - g.d2 / 2| ≤ L + g.d2)
      unfold Fmt.sub
      linarith
    have se : |A.add (A.div L2 2) (A.div g.d2 2) - (L / 2 + g.d2 / 2)| ≤ 4 * A.e * (L + g.d2) := by
      have a : |(A.div L2 2 + A.div g.d2 2) - (L / 2 + g.d2 / 2)| ≤ 1.01 * (A.e * L) + A.e * g.d2 / 2 := by
        rw [add_sub_add_comm]
        exact (abs_add_le _ _).trans (add_le_add sc sh)
      have := A.rnd_abs a (abs_le.2 ⟨by linarith, by linarith⟩ : |L / 2 + g.d2 / 2| ≤ L + g.d2)
      unfold Fmt.add
      linarith
    exact C150_linspace A he ss se (abs_le.2 ⟨by linarith, by linarith⟩) (abs_le.2 ⟨by linarith, by linarith⟩)
      (abs_le.2 ⟨by linarith, by linarith⟩) (by omega) hb.le

/-- **C150** What `generate` adds in floating point arithmetic.  At plane `j` of block `i` of a call and lateral index `b`, if the point
lies between the first and the last nodes for the exact as for the computed coordinates, the computed low-frequency part is within
the bound of `C150_value` of the exact one, with positions known to `17 e N1 max(1, X / L1)` and `17 e N2 (1 + d2 / L2)` cells. -/
theorem C150_added (A : Fmt) (he : A.e ≤ 1 / 100) {g : Gen} (hd1 : 0 < g.d1) (hd2 : 0 < g.d2) {lf : LowFreq} (hL1 : 0 < lf.userL1)
    (hL2 : 0 < lf.userL2) (hN1 : 2 ≤ lf.userN1) (hN2 : 2 ≤ lf.userN2) {L1 L2 : ℝ} (h1 : |L1 - lf.userL1| ≤ A.e * lf.userL1)
    (h2 : |L2 - lf.userL2| ≤ A.e * lf.userL2) {m m' : Mat} {D M μ ε : ℝ} (hm : Spec.NeighboursWithin m lf.userN1 lf.userN2 D)
    (hM : ∀ i < lf.userN1, ∀ j < lf.userN2, |m.entry i j| ≤ M) (hμ : ∀ i < lf.userN1, ∀ j < lf.userN2, |m'.entry i j - m.entry i j| ≤ μ)
    (hε : 0 ≤ ε) (i nx : ℕ) {j b : ℕ} (hj : j < nx) (hb : b < g.Ny) {v : ℝ} :
    let x := (g.xTargets i nx).getD j 0
    let y := (g.yTargets lf).getD b 0
    let δ1 := 17 * A.e * lf.userN1 * max 1 ((i * g.d1 + g.d1 * (nx / g.Nx)) / lf.userL1)
    let δ2 := 17 * A.e * lf.userN2 * (1 + g.d2 / lf.userL2)
    let κ := Real.exp (3 * A.e) - 1
    δ1 < 1 / 2 → δ2 < 1 / 2 →
    (0 ≤ x ∧ x ≤ lf.userL1 - lf.userL1 / lf.userN1 ∧ 0 ≤ y ∧ y ≤ lf.userL2 - lf.userL2 / lf.userN2) →
    (A.linspaceOpen 0 L1 lf.userN1 0 ≤ A.xTarget g i nx j ∧ A.xTarget g i nx j ≤ A.linspaceOpen 0 L1 lf.userN1 (lf.userN1 - 1) ∧
      A.linspaceOpen 0 L2 lf.userN2 0 ≤ A.yTarget g L2 b ∧ A.yTarget g L2 b ≤ A.linspaceOpen 0 L2 lf.userN2 (lf.userN2 - 1)) →
    A.InterpOf (A.lowCoords L1 lf.userN1) (A.lowCoords L2 lf.userN2) m' (A.xTarget g i nx j) (A.yTarget g L2 b) ε v →
    |v - interpAt (lfCoords lf.userL1 lf.userN1) (lfCoords lf.userL2 lf.userN2) m x y| ≤
      (1 + 2 * κ) ^ 2 * (μ + ε * (M + μ)) + D * (4 * (δ1 + δ2) + 2 * κ + 2 * κ ^ 2) := by
  intro x y δ1 δ2 κ k1 k2 hr hr' hv
  obtain ⟨c1, c2, c3, c4⟩ := C150_coordinates A he hd1 hd2 hL1 hL2 h1 h2
  have e0 := A.e_nonneg
  have q1 : (0 : ℝ) < lf.userN1 := by exact_mod_cast (by omega : 0 < lf.userN1)
  have q2 : (0 : ℝ) < lf.userN2 := by exact_mod_cast (by omega : 0 < lf.userN2)
  have s1 : δ1 * (lf.userL1 / lf.userN1) = 17 * A.e * (lf.userL1 * max 1 ((i * g.d1 + g.d1 * (nx / g.Nx)) / lf.userL1)) := by
    change 17 * A.e * lf.userN1 * _ * _ = _
    field_simp
  have s2 : δ2 * (lf.userL2 / lf.userN2) = 17 * A.e * (lf.userL2 + g.d2) := by
    change 17 * A.e * lf.userN2 * _ * _ = _
    field_simp
  have m1 : lf.userL1 ≤ lf.userL1 * max 1 ((i * g.d1 + g.d1 * (nx / g.Nx)) / lf.userL1) :=
    le_mul_of_one_le_right hL1.le (le_max_left _ _)
  have m2 : i * g.d1 + g.d1 * (nx / g.Nx) ≤ lf.userL1 * max 1 ((i * g.d1 + g.d1 * (nx / g.Nx)) / lf.userL1) := by
    calc i * g.d1 + g.d1 * (nx / g.Nx) = lf.userL1 * ((i * g.d1 + g.d1 * (nx / g.Nx)) / lf.userL1) := by field_simp
      _ ≤ _ := mul_le_mul_of_nonneg_left (le_max_right _ _) hL1.le
  have e17 : 0 ≤ 17 * A.e := by linarith
  refine C150_value A hL1 hL2 hN1 hN2 hm hM hμ k1 k2 hε ?_ ?_ ?_ ?_ hr.1 hr.2.1 hr.2.2.1 hr.2.2.2 hr'.1 hr'.2.1 hr'.2.2.1 hr'.2.2.2 hv
  · intro a ha
    rw [s1, ← lfCoords_getD ha]
    exact (c1 a ha).trans (mul_le_mul_of_nonneg_left m1 e17)
  · intro a ha
    rw [s2, ← lfCoords_getD ha]
    exact (c2 a ha).trans (mul_le_mul_of_nonneg_left (by linarith) e17)
  · rw [s1]
    exact (c3 i nx j hj).trans (mul_le_mul_of_nonneg_left m2 e17)
  · rw [s2]
    exact c4 b hb

/-- **C150** Beyond the last node the computed part is zero, as the exact one is there: the part breaks off, it does not fade out. -/
theorem C150_outside (A : Fmt) {L1 L2 : ℝ} {N1 N2 : ℕ} (hN1 : 0 < N1) (hN2 : 0 < N2) {m : Mat} {x y ε v : ℝ}
    (h : x < A.linspaceOpen 0 L1 N1 0 ∨ A.linspaceOpen 0 L1 N1 (N1 - 1) < x ∨ y < A.linspaceOpen 0 L2 N2 0 ∨
      A.linspaceOpen 0 L2 N2 (N2 - 1) < y) (hv : A.InterpOf (A.lowCoords L1 N1) (A.lowCoords L2 N2) m x y ε v) : v = 0 := by
  have head : ∀ {f : ℕ → ℝ} {N : ℕ}, 0 < N → ((List.range N).map f).headD 0 = f 0 := by
    intro f N h
    obtain ⟨n, rfl⟩ := Nat.exists_eq_succ_of_ne_zero h.ne'
    simp [List.range_succ_eq_map]
  have last : ∀ {f : ℕ → ℝ} {N : ℕ}, 0 < N → ((List.range N).map f).getLastD 0 = f (N - 1) := by
    intro f N h
    obtain ⟨n, rfl⟩ := Nat.exists_eq_succ_of_ne_zero h.ne'
    simp [List.range_succ]
  unfold Fmt.InterpOf at hv
  rwa [if_pos (by
    unfold Fmt.lowCoords
    rw [head hN1, head hN2, last hN1, last hN2]
    exact h)] at hv

/-- **C150** In exact arithmetic nodes, targets and values are those of the model. -/
theorem C150_exact (g : Gen) (lf : LowFreq) (m : Mat) (x y v : ℝ) :
    (∀ L N, Fmt.exact.lowCoords L N = lfCoords L N) ∧
    (∀ i nx j, j < nx → Fmt.exact.xTarget g i nx j = (g.xTargets i nx).getD j 0) ∧
    (∀ b < g.Ny, Fmt.exact.yTarget g lf.userL2 b = (g.yTargets lf).getD b 0) ∧
    ∀ xs ys, Fmt.exact.InterpOf xs ys m x y 0 v ↔ v = interpAt xs ys m x y := by
  refine ⟨?_, ?_, ?_, ?_⟩
  · intro L N
    simp only [Fmt.lowCoords, lfCoords, Fmt.linspaceOpen, Fmt.exact, Fmt.add, Fmt.mul, Fmt.div, Fmt.sub, id, sub_zero, add_zero]
  · intro i nx j hj
    unfold Gen.xTargets Fmt.xTarget
    simp only
    rw [tab_getD _ hj]
    simp only [Fmt.linspaceOpen, Fmt.exact, Fmt.add, Fmt.mul, Fmt.div, Fmt.sub, id]
    ring
  · intro b hb
    unfold Gen.yTargets Fmt.yTarget
    simp only
    rw [tab_getD _ hb]
    simp only [Fmt.linspaceOpen, Fmt.exact, Fmt.add, Fmt.mul, Fmt.div, Fmt.sub, id]
    ring
  · intro xs ys
    have hw : ∀ xs x, Fmt.exact.interpWeight xs x = normDist xs x := fun xs x => rfl
    unfold Fmt.InterpOf interpAt
    by_cases h : x < xs.headD 0 ∨ xs.getLastD 0 < x ∨ y < ys.headD 0 ∨ ys.getLastD 0 < y
    · rw [if_pos h, if_pos h]
    · rw [if_neg h, if_neg h]
      simp only [hw, zero_mul]
      constructor
      · intro hh
        exact sub_eq_zero.1 (abs_nonpos_iff.1 hh)
      · intro hh
        rw [hh, sub_self, abs_zero]

/-! ### A case: four values on the square of extent 2, in double precision, at the centre of the cell -/

example : let A := Fmt.binary 53 (by norm_num)
    let m : Mat := [[0, 1], [2, 3]]
    ∃ v, Spec.NeighboursWithin m 2 2 2 ∧ (∀ i < 2, ∀ j < 2, |m.entry i j| ≤ 3) ∧
      (∀ i < 2, |A.linspaceOpen 0 2 2 i - i * ((2 : ℝ) / (2 : ℕ))| ≤ 0 * ((2 : ℝ) / (2 : ℕ))) ∧
      A.linspaceOpen 0 2 2 0 ≤ 1 / 2 ∧ (1 / 2 : ℝ) ≤ A.linspaceOpen 0 2 2 (2 - 1) ∧ (1 / 2 : ℝ) ≤ 2 - 2 / (2 : ℕ) ∧
      A.InterpOf (A.lowCoords 2 2) (A.lowCoords 2 2) m (1 / 2) (1 / 2) 1e-15 v := by
  intro A m
  have fx : ∀ n : ℕ, n ≠ 0 → n < 2 ^ 53 → A.rnd n = n := fun n a b => nearest_natCast a b
  have r0 : A.rnd 0 = 0 := by
    have := A.err 0
    rw [abs_zero, mul_zero, sub_zero] at this
    exact abs_nonpos_iff.1 this
  have r1 : A.rnd 1 = 1 := by simpa using fx 1
  have r2 : A.rnd 2 = 2 := by simpa using fx 2
  have n0 : A.linspaceOpen 0 2 2 0 = 0 := by
    simp [Fmt.linspaceOpen, Fmt.add, Fmt.mul, Fmt.div, Fmt.sub, r0]
  have n1 : A.linspaceOpen 0 2 2 1 = 1 := by
    simp [Fmt.linspaceOpen, Fmt.add, Fmt.mul, Fmt.div, Fmt.sub, r1, r2]
  have hv : ∃ v, A.InterpOf (A.lowCoords 2 2) (A.lowCoords 2 2) m (1 / 2) (1 / 2) 1e-15 v := by
    have hc : ¬((1 / 2 : ℝ) < (A.lowCoords 2 2).headD 0 ∨ (A.lowCoords 2 2).getLastD 0 < 1 / 2 ∨
        (1 / 2 : ℝ) < (A.lowCoords 2 2).headD 0 ∨ (A.lowCoords 2 2).getLastD 0 < 1 / 2) := by
      simp only [Fmt.lowCoords, List.range_succ, List.range_zero, List.nil_append, List.map_append, List.map_cons, List.map_nil,
        n0, n1, List.cons_append, List.headD_cons, List.getLastD_cons]
      norm_num
    unfold Fmt.InterpOf
    simp only [hc, ↓reduceIte]
    refine ⟨_, le_of_eq_of_le (abs_eq_zero.2 (sub_self _)) ?_⟩
    positivity
  obtain ⟨v, hv⟩ := hv
  refine ⟨v, ⟨?_, ?_⟩, ?_, ?_, ?_, ?_, ?_, hv⟩
  · intro i j hi hj
    have : i = 0 := by omega
    subst this
    interval_cases j <;> norm_num [m, Mat.entry]
  · intro i j hi hj
    have : j = 0 := by omega
    subst this
    interval_cases i <;> norm_num [m, Mat.entry]
  · intro i hi j hj
    interval_cases i <;> interval_cases j <;> norm_num [m, Mat.entry]
  · intro i hi
    interval_cases i
    · rw [n0]; norm_num
    · rw [n1]; norm_num
  · rw [n0]; norm_num
  · rw [n1]; norm_num
  · norm_num

end
end Verif
