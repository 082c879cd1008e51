import Verif.Model.LowFreqPlot
import Verif.Props.LowFreqStudy

/-!
# The picture of the low-frequency fields: C120
-/

namespace Verif

noncomputable section
open Classical

theorem foldl_min_le (l : List ℝ) (a : ℝ) : l.foldl min a ≤ a ∧ ∀ x ∈ l, l.foldl min a ≤ x := by
  induction l generalizing a with
  | nil => simp
  | cons b l ih =>
    have h := ih (min a b)
    simp only [List.foldl_cons]
    refine ⟨h.1.trans (min_le_left _ _), fun x hx => ?_⟩
    rcases List.mem_cons.1 hx with rfl | hx
    · exact h.1.trans (min_le_right _ _)
    · exact h.2 x hx

theorem foldl_min_mem (l : List ℝ) (a : ℝ) : l.foldl min a ∈ a :: l := by
  induction l generalizing a with
  | nil => simp
  | cons b l ih =>
    have h := ih (min a b)
    simp only [List.foldl_cons]
    rcases List.mem_cons.1 h with h | h
    · rcases min_choice a b with e | e <;> rw [h, e] <;> simp
    · simp [h]

theorem le_foldl_max (l : List ℝ) (a : ℝ) : a ≤ l.foldl max a ∧ ∀ x ∈ l, x ≤ l.foldl max a := by
  induction l generalizing a with
  | nil => simp
  | cons b l ih =>
    have h := ih (max a b)
    simp only [List.foldl_cons]
    refine ⟨(le_max_left _ _).trans h.1, fun x hx => ?_⟩
    rcases List.mem_cons.1 hx with rfl | hx
    · exact (le_max_right _ _).trans h.1
    · exact h.2 x hx

theorem foldl_max_mem (l : List ℝ) (a : ℝ) : l.foldl max a ∈ a :: l := by
  induction l generalizing a with
  | nil => simp
  | cons b l ih =>
    have h := ih (max a b)
    simp only [List.foldl_cons]
    rcases List.mem_cons.1 h with h | h
    · rcases max_choice a b with e | e <;> rw [h, e] <;> simp
    · simp [h]

theorem npMin_spec {l : List ℝ} (h : l ≠ []) : ∃ m ∈ l, npMin l = .ok m ∧ ∀ x ∈ l, m ≤ x := by
  cases l with
  | nil => exact absurd rfl h
  | cons a l =>
    refine ⟨_, foldl_min_mem l a, rfl, fun x hx => ?_⟩
    rcases List.mem_cons.1 hx with rfl | hx
    · exact (foldl_min_le l x).1
    · exact (foldl_min_le l a).2 x hx

theorem npMax_spec {l : List ℝ} (h : l ≠ []) : ∃ m ∈ l, npMax l = .ok m ∧ ∀ x ∈ l, x ≤ m := by
  cases l with
  | nil => exact absurd rfl h
  | cons a l =>
    refine ⟨_, foldl_max_mem l a, rfl, fun x hx => ?_⟩
    rcases List.mem_cons.1 hx with rfl | hx
    · exact (le_foldl_max l x).1
    · exact (le_foldl_max l a).2 x hx

theorem mem_flatten_iff {m : Mat} {n1 n2 : ℕ} (h : m.HasShape n1 n2) (v : ℝ) :
    v ∈ m.flatten ↔ ∃ i < n1, ∃ j < n2, m.entry i j = v := by
  rw [h.eq_tab2]
  constructor
  · intro hv
    obtain ⟨r, hr, hv⟩ := List.mem_flatten.1 hv
    obtain ⟨i, hi, rfl⟩ := List.mem_map.1 hr
    obtain ⟨j, hj, rfl⟩ := List.mem_map.1 hv
    exact ⟨i, List.mem_range.1 hi, j, List.mem_range.1 hj, entry_tab2 _ (List.mem_range.1 hi) (List.mem_range.1 hj)⟩
  · rintro ⟨i, hi, j, hj, rfl⟩
    rw [entry_tab2 _ hi hj]
    exact List.mem_flatten.2 ⟨_, List.mem_map.2 ⟨i, List.mem_range.2 hi, rfl⟩, List.mem_map.2 ⟨j, List.mem_range.2 hj, rfl⟩⟩

theorem T_eq {m : Mat} {n1 n2 : ℕ} (h : m.HasShape n1 n2) (h1 : 0 < n1) :
    m.T = tab2 n2 n1 fun j i => m.entry i j := by
  unfold Mat.T
  rw [h.headD h1, h.1]

/-- Column (or row) in which a point of the axis falls. -/
theorem pixel_index {d : ℝ} (hd : 0 < d) {n i : ℕ} (hi : i < n) {x : ℝ} (h1 : (i : ℝ) * d - d / 2 ≤ x)
    (h2 : x < (i : ℝ) * d + d / 2) :
    -(d / 2) ≤ x ∧ x < ((n - 1 : ℕ) : ℝ) * d + d / 2 ∧
      ⌊(x - -(d / 2)) / ((((n - 1 : ℕ) : ℝ) * d + d / 2 - -(d / 2)) / n)⌋₊ = i := by
  have hn : (0:ℝ) < n := by exact_mod_cast Nat.lt_of_le_of_lt (Nat.zero_le i) hi
  have hc : ((n - 1 : ℕ) : ℝ) = n - 1 := by rw [Nat.cast_sub (by omega)]; simp
  have hin : (i : ℝ) ≤ n - 1 := by
    rw [← hc]; exact_mod_cast (by omega : i ≤ n - 1)
  have h0 : (0:ℝ) ≤ (i : ℝ) * d := by positivity
  refine ⟨by linarith, ?_, ?_⟩
  · rw [hc]
    have := mul_le_mul_of_nonneg_right hin hd.le
    linarith
  · have e : (((n - 1 : ℕ) : ℝ) * d + d / 2 - -(d / 2)) / n = d := by rw [hc]; field_simp; ring
    rw [e, Nat.floor_eq_iff (by
      apply div_nonneg _ hd.le
      linarith)]
    constructor
    · rw [le_div_iff₀ hd]; linarith
    · rw [div_lt_iff₀ hd]; linarith

/-- What is known about an object built with positive lengths. -/
theorem lfInit_fields {cfg : LFConfig} (hp : cfg.Pos) {lf : LowFreq} (h : lfInit cfg = .ok lf) :
    lf.u = none ∧ 0 < lf.userL1 ∧ 0 < lf.userL2 ∧ 0 < lf.userN1 ∧ 0 < lf.userN2 ∧ lf.userDx = lf.userL1 / lf.userN1 ∧
      lf.userDy = lf.userL2 / lf.userN2 := by
  obtain ⟨c, hc⟩ := lfInit_computeC h
  obtain ⟨lf0, h0, -, -, hu, -, l1, l2, N1, N2, ex, ey, -⟩ := lfInit_ok hp hc
  rw [h] at h0
  obtain rfl := Except.ok.inj h0
  refine ⟨hu, ?_, ?_, ?_, ?_, ex, ey⟩
  · rw [l1]; exact mul_pos hp.2.1 hp.1
  · rw [l2]; exact mul_pos hp.2.2 hp.1
  · rw [N1]; positivity
  · rw [N2]; positivity

/-- **C120** Without a stored field the call raises `RuntimeError`; in particular on every new object. -/
theorem C120_before (lf : LowFreq) : (lf.u = none → lf.plotFields = .error .runtimeError) ∧
    (∀ {cfg : LFConfig}, cfg.Pos → lfInit cfg = .ok lf → lf.plotFields = .error .runtimeError) := by
  have h0 : lf.u = none → lf.plotFields = .error .runtimeError := fun h => by
    unfold LowFreq.plotFields
    rw [h]
  exact ⟨h0, fun hp h => h0 (lfInit_fields hp h).1⟩

/-- All values that are drawn. -/
def Spec.IsValue (lf : LowFreq) (u1 u2 : Mat) (v : ℝ) : Prop :=
  ∃ i < lf.userN1, ∃ j < lf.userN2, u1.entry i j = v ∨ u2.entry i j = v

/-- The images of an object that holds a field of the requested shape. -/
theorem plotFields_ok {cfg : LFConfig} (hp : cfg.Pos) {lf : LowFreq} (h : lfInit cfg = .ok lf) (f : Option (Mat × Mat))
    {u1 u2 : Mat} (s1 : u1.HasShape lf.userN1 lf.userN2) (s2 : u2.HasShape lf.userN1 lf.userN2) :
    ∃ a b : Image, LowFreq.plotFields { lf with full := f, u := some (u1, u2) } = .ok (a, b) ∧
      (∀ i < lf.userN1, ∀ j < lf.userN2, ∀ x y : ℝ,
        lf.userDx * i - lf.userDx / 2 ≤ 1000 * x → 1000 * x < lf.userDx * i + lf.userDx / 2 →
        lf.userDy * j - lf.userDy / 2 ≤ 1000 * y → 1000 * y < lf.userDy * j + lf.userDy / 2 →
        a.valueAt x y = some (u1.entry i j) ∧ b.valueAt x y = some (u2.entry i j)) ∧
      (∀ x y : ℝ, ((a.valueAt x y).isSome ↔ -(lf.userDx / 2) ≤ 1000 * x ∧ 1000 * x < lf.userL1 - lf.userDx / 2 ∧
          -(lf.userDy / 2) ≤ 1000 * y ∧ 1000 * y < lf.userL2 - lf.userDy / 2) ∧
        ((b.valueAt x y).isSome ↔ (a.valueAt x y).isSome)) ∧
      ∃ m : ℝ, a.vmin = -m ∧ a.vmax = m ∧ b.vmin = -m ∧ b.vmax = m ∧
        (∀ v, Spec.IsValue lf u1 u2 v → |v| ≤ m) ∧ ∃ v, Spec.IsValue lf u1 u2 v ∧ |v| = m := by
  obtain ⟨-, l1, l2, n1, n2, ex, ey⟩ := lfInit_fields hp h
  have q1 : (0:ℝ) < lf.userN1 := by exact_mod_cast n1
  have q2 : (0:ℝ) < lf.userN2 := by exact_mod_cast n2
  have dx : 0 < lf.userDx := by rw [ex]; positivity
  have dy : 0 < lf.userDy := by rw [ey]; positivity
  have ne1 : u1.flatten ≠ [] := by
    intro e
    have := (mem_flatten_iff s1 (u1.entry 0 0)).2 ⟨0, n1, 0, n2, rfl⟩
    simp [e] at this
  have ne2 : u2.flatten ≠ [] := by
    intro e
    have := (mem_flatten_iff s2 (u2.entry 0 0)).2 ⟨0, n1, 0, n2, rfl⟩
    simp [e] at this
  obtain ⟨m1, hm1, em1, lo1⟩ := npMin_spec ne1
  obtain ⟨m2, hm2, em2, lo2⟩ := npMin_spec ne2
  obtain ⟨M1, hM1, eM1, hi1⟩ := npMax_spec ne1
  obtain ⟨M2, hM2, eM2, hi2⟩ := npMax_spec ne2
  have ex0 : (lfCoords lf.userL1 lf.userN1).headD 0 / 1000 - lf.userDx / 1000 / 2 = -(lf.userDx / 1000 / 2) := by
    rw [lfCoords_head n1]; ring
  have ey0 : (lfCoords lf.userL2 lf.userN2).headD 0 / 1000 - lf.userDy / 1000 / 2 = -(lf.userDy / 1000 / 2) := by
    rw [lfCoords_head n2]; ring
  have ex1 : (lfCoords lf.userL1 lf.userN1).getLastD 0 / 1000 + lf.userDx / 1000 / 2 =
      ((lf.userN1 - 1 : ℕ) : ℝ) * (lf.userDx / 1000) + lf.userDx / 1000 / 2 := by
    rw [lfCoords_last n1, ← ex]; ring
  have ey1 : (lfCoords lf.userL2 lf.userN2).getLastD 0 / 1000 + lf.userDy / 1000 / 2 =
      ((lf.userN2 - 1 : ℕ) : ℝ) * (lf.userDy / 1000) + lf.userDy / 1000 / 2 := by
    rw [lfCoords_last n2, ← ey]; ring
  have cx : ((lf.userN1 - 1 : ℕ) : ℝ) * (lf.userDx / 1000) + lf.userDx / 1000 / 2 = (lf.userL1 - lf.userDx / 2) / 1000 := by
    rw [Nat.cast_sub (by omega), ex]; field_simp; push_cast; ring
  have cy : ((lf.userN2 - 1 : ℕ) : ℝ) * (lf.userDy / 1000) + lf.userDy / 1000 / 2 = (lf.userL2 - lf.userDy / 2) / 1000 := by
    rw [Nat.cast_sub (by omega), ey]; field_simp; push_cast; ring
  set m := max |min m1 m2| |max M1 M2| with hm
  refine ⟨⟨u1.T, -(lf.userDx / 1000 / 2), ((lf.userN1 - 1 : ℕ) : ℝ) * (lf.userDx / 1000) + lf.userDx / 1000 / 2,
      -(lf.userDy / 1000 / 2), ((lf.userN2 - 1 : ℕ) : ℝ) * (lf.userDy / 1000) + lf.userDy / 1000 / 2, -m, m⟩,
    ⟨u2.T, -(lf.userDx / 1000 / 2), ((lf.userN1 - 1 : ℕ) : ℝ) * (lf.userDx / 1000) + lf.userDx / 1000 / 2,
      -(lf.userDy / 1000 / 2), ((lf.userN2 - 1 : ℕ) : ℝ) * (lf.userDy / 1000) + lf.userDy / 1000 / 2, -m, m⟩, ?_, ?_, ?_, m, rfl, rfl, rfl, rfl, ?_, ?_⟩
  · unfold LowFreq.plotFields
    simp only [em1, em2, eM1, eM2, ex0, ey0, ex1, ey1]
    rfl
  · intro i hi j hj x y x1 x2 y1 y2
    obtain ⟨a1, a2, a3⟩ := pixel_index (d := lf.userDx / 1000) (by positivity) hi (x := x) (by linarith) (by linarith)
    obtain ⟨b1, b2, b3⟩ := pixel_index (d := lf.userDy / 1000) (by positivity) hj (x := y) (by linarith) (by linarith)
    have hr : ∀ {u : Mat}, u.HasShape lf.userN1 lf.userN2 → u.T.length = lf.userN2 ∧ (u.T.headD []).length = lf.userN1 ∧
        u.T.entry j i = u.entry i j := by
      intro u s
      rw [T_eq s n1]
      exact ⟨(tab2_shape _ _ _).1, (tab2_shape _ _ _).headD n2, entry_tab2 _ hj hi⟩
    unfold Image.valueAt
    constructor
    · obtain ⟨r1, r2, r3⟩ := hr s1
      simp only [r1, r2]
      rw [if_pos ⟨a1, a2, b1, b2⟩, a3, b3, r3]
    · obtain ⟨r1, r2, r3⟩ := hr s2
      simp only [r1, r2]
      rw [if_pos ⟨a1, a2, b1, b2⟩, a3, b3, r3]
  · intro x y
    have key : ∀ u : Mat, ((Image.valueAt ⟨u, -(lf.userDx / 1000 / 2), ((lf.userN1 - 1 : ℕ) : ℝ) * (lf.userDx / 1000) +
        lf.userDx / 1000 / 2, -(lf.userDy / 1000 / 2), ((lf.userN2 - 1 : ℕ) : ℝ) * (lf.userDy / 1000) + lf.userDy / 1000 / 2, -m,
        m⟩ x y).isSome ↔ -(lf.userDx / 2) ≤ 1000 * x ∧ 1000 * x < lf.userL1 - lf.userDx / 2 ∧
          -(lf.userDy / 2) ≤ 1000 * y ∧ 1000 * y < lf.userL2 - lf.userDy / 2) := by
      intro u
      rw [cx, cy]
      unfold Image.valueAt
      simp only
      split_ifs with hh
      · simp only [Option.isSome_some, true_iff]
        obtain ⟨h1, h2, h3, h4⟩ := hh
        exact ⟨by linarith, by linarith, by linarith, by linarith⟩
      · simp only [Option.isSome_none, Bool.false_eq_true, false_iff]
        rintro ⟨h1, h2, h3, h4⟩
        exact hh ⟨by linarith, by linarith, by linarith, by linarith⟩
    exact ⟨key _, (key _).trans (key _).symm⟩
  · rintro v ⟨i, hi, j, hj, hv⟩
    have hb : min m1 m2 ≤ v ∧ v ≤ max M1 M2 := by
      rcases hv with hv | hv
      · have := (mem_flatten_iff s1 v).2 ⟨i, hi, j, hj, hv⟩
        exact ⟨(min_le_left _ _).trans (lo1 v this), (hi1 v this).trans (le_max_left _ _)⟩
      · have := (mem_flatten_iff s2 v).2 ⟨i, hi, j, hj, hv⟩
        exact ⟨(min_le_right _ _).trans (lo2 v this), (hi2 v this).trans (le_max_right _ _)⟩
    rw [abs_le]
    constructor
    · have : -|min m1 m2| ≤ min m1 m2 := neg_abs_le _
      have := le_max_left |min m1 m2| |max M1 M2|
      linarith
    · have := le_abs_self (max M1 M2)
      have := le_max_right |min m1 m2| |max M1 M2|
      linarith
  · have val1 : ∀ v ∈ u1.flatten, Spec.IsValue lf u1 u2 v := fun v hv => by
      obtain ⟨i, hi, j, hj, e⟩ := (mem_flatten_iff s1 v).1 hv
      exact ⟨i, hi, j, hj, Or.inl e⟩
    have val2 : ∀ v ∈ u2.flatten, Spec.IsValue lf u1 u2 v := fun v hv => by
      obtain ⟨i, hi, j, hj, e⟩ := (mem_flatten_iff s2 v).1 hv
      exact ⟨i, hi, j, hj, Or.inr e⟩
    have vmin : Spec.IsValue lf u1 u2 (min m1 m2) := by
      rcases min_choice m1 m2 with e | e <;> rw [e]
      · exact val1 _ hm1
      · exact val2 _ hm2
    have vmax : Spec.IsValue lf u1 u2 (max M1 M2) := by
      rcases max_choice M1 M2 with e | e <;> rw [e]
      · exact val1 _ hM1
      · exact val2 _ hM2
    rcases max_choice |min m1 m2| |max M1 M2| with e | e
    · exact ⟨_, vmin, by rw [hm, e]⟩
    · exact ⟨_, vmax, by rw [hm, e]⟩

/-- What the call draws after a successful `generate`, whatever was stored before. -/
theorem plotFields_generate {cfg : LFConfig} (hp : cfg.Pos) {lf : LowFreq} (h : lfInit cfg = .ok lf)
    (old : Option (Mat × Mat)) (oldu : Option (Mat × Mat)) (g : ℕ → ℝ) (pos : ℕ) :
    ∃ (u1 u2 f1 f2 : Mat) (s : LowFreq) (p : ℕ),
      LowFreq.generate { lf with full := old, u := oldu } g pos = (.ok (u1, u2), (s, p)) ∧
      s = { lf with full := some (f1, f2), u := some (u1, u2) } ∧
      u1.HasShape lf.userN1 lf.userN2 ∧ u2.HasShape lf.userN1 lf.userN2 ∧
      (∀ i < lf.userN1, ∀ j < lf.userN2,
        u1.entry i j = f1.entry ((lf.compN1 - lf.userN1) / 2 + i) ((lf.compN2 - lf.userN2) / 2 + j) ∧
        u2.entry i j = f2.entry ((lf.compN1 - lf.userN1) / 2 + i) ((lf.compN2 - lf.userN2) / 2 + j)) := by
  obtain ⟨u1, u2, f1, f2, lf', hg, hlf, -, -, s1, s2, hc⟩ := generate_spec hp h g pos
  exact ⟨u1, u2, f1, f2, lf', _, generate_again lf old oldu hg, hlf, s1, s2, hc⟩

/-- **C120** After any successful `generate` — on a new object or one that was used before — the call succeeds.  The left panel
shows the values of `u1` that `generate` returned, the right one those of `u2`: the value of grid point `(i, j)` fills the cell of
the user's grid around the point `(i · dx, j · dy)`, in kilometres, `x` to the right and `y` upwards.  Nothing is drawn outside the
requested domain, which starts half a cell before the origin. -/
theorem C120_positions {cfg : LFConfig} (hp : cfg.Pos) {lf : LowFreq} (h : lfInit cfg = .ok lf) (old oldu : Option (Mat × Mat))
    (g : ℕ → ℝ) (pos : ℕ) {u1 u2 : Mat} {s : LowFreq} {p : ℕ}
    (hg : LowFreq.generate { lf with full := old, u := oldu } g pos = (.ok (u1, u2), (s, p))) :
    ∃ a b : Image, s.plotFields = .ok (a, b) ∧
      lf.userDx = cfg.L1factor * cfg.L2d / 2 ^ cfg.exp1 ∧ lf.userDy = cfg.L2factor * cfg.L2d / 2 ^ cfg.exp2 ∧
      (∀ i : ℕ, i < 2 ^ cfg.exp1 → ∀ j : ℕ, j < 2 ^ cfg.exp2 → ∀ x y : ℝ,
        |1000 * x - lf.userDx * i| < lf.userDx / 2 → |1000 * y - lf.userDy * j| < lf.userDy / 2 →
        a.valueAt x y = some (u1.entry i j) ∧ b.valueAt x y = some (u2.entry i j)) ∧
      ∀ x y : ℝ, ((a.valueAt x y).isSome ↔
          0 ≤ 1000 * x + lf.userDx / 2 ∧ 1000 * x + lf.userDx / 2 < cfg.L1factor * cfg.L2d ∧
          0 ≤ 1000 * y + lf.userDy / 2 ∧ 1000 * y + lf.userDy / 2 < cfg.L2factor * cfg.L2d) ∧
        ((b.valueAt x y).isSome ↔ (a.valueAt x y).isSome) := by
  obtain ⟨v1, v2, f1, f2, s', p', hg', hs, s1, s2, -⟩ := plotFields_generate hp h old oldu g pos
  rw [hg] at hg'
  simp only [Prod.mk.injEq, Except.ok.injEq] at hg'
  obtain ⟨⟨rfl, rfl⟩, rfl, rfl⟩ := hg'
  obtain ⟨c, hc⟩ := lfInit_computeC h
  obtain ⟨lf0, h0, -, -, -, -, l1, l2, N1, N2, ex, ey, -⟩ := lfInit_ok hp hc
  rw [h] at h0
  obtain rfl := Except.ok.inj h0
  obtain ⟨a, b, hab, hv, hb, -⟩ := plotFields_ok hp h (some (f1, f2)) s1 s2
  refine ⟨a, b, hs ▸ hab, by rw [ex, l1, N1]; push_cast; rfl, by rw [ey, l2, N2]; push_cast; rfl, ?_,
    fun x y => ⟨(hb x y).1.trans ?_, (hb x y).2⟩⟩
  · intro i hi j hj x y hx hy
    rw [abs_lt] at hx hy
    exact hv i (N1 ▸ hi) j (N2 ▸ hj) x y (by linarith) (by linarith) (by linarith) (by linarith)
  · rw [l1, l2]
    constructor
    · rintro ⟨h1, h2, h3, h4⟩
      exact ⟨by linarith, by linarith, by linarith, by linarith⟩
    · rintro ⟨h1, h2, h3, h4⟩
      exact ⟨by linarith, by linarith, by linarith, by linarith⟩

/-- **C120** The colours.  With `m` the largest absolute value of both components: if `m` is positive, a velocity `v` is drawn in
both panels at the position `1/2 + v / (2 m)` of the colour map — equal colours mean equal velocities, across panels too; zero is in
the middle, no value is cut off, and some value is drawn in one of the two end colours.  If both components vanish everywhere, they are
drawn at the lower end of the colour map, not in the middle. -/
theorem C120_colours {cfg : LFConfig} (hp : cfg.Pos) {lf : LowFreq} (h : lfInit cfg = .ok lf) (old oldu : Option (Mat × Mat))
    (g : ℕ → ℝ) (pos : ℕ) {u1 u2 : Mat} {s : LowFreq} {p : ℕ}
    (hg : LowFreq.generate { lf with full := old, u := oldu } g pos = (.ok (u1, u2), (s, p))) :
    ∃ a b : Image, s.plotFields = .ok (a, b) ∧
      ((∃ v, Spec.IsValue lf u1 u2 v ∧ v ≠ 0) →
        (∃ m > 0, (∀ v, Spec.IsValue lf u1 u2 v → |v| ≤ m ∧ a.shade v = 1 / 2 + v / (2 * m) ∧ b.shade v = a.shade v) ∧
          a.shade 0 = 1 / 2 ∧ b.shade 0 = 1 / 2 ∧
          ∃ v, Spec.IsValue lf u1 u2 v ∧ (a.shade v = 0 ∨ a.shade v = 1))) ∧
      ((∀ v, Spec.IsValue lf u1 u2 v → v = 0) → a.shade 0 = 0 ∧ b.shade 0 = 0) := by
  obtain ⟨v1, v2, f1, f2, s', p', hg', hs, s1, s2, -⟩ := plotFields_generate hp h old oldu g pos
  rw [hg] at hg'
  simp only [Prod.mk.injEq, Except.ok.injEq] at hg'
  obtain ⟨⟨rfl, rfl⟩, rfl, rfl⟩ := hg'
  obtain ⟨a, b, hab, -, -, m, e1, e2, e3, e4, hle, w, hw, hwm⟩ := plotFields_ok hp h (some (f1, f2)) s1 s2
  refine ⟨a, b, hs ▸ hab, ?_, ?_⟩
  · rintro ⟨v, hv, hv0⟩
    have hm : 0 < m := lt_of_lt_of_le (abs_pos.2 hv0) (hle v hv)
    have hsh : ∀ im : Image, im.vmin = -m → im.vmax = m → ∀ v, |v| ≤ m → im.shade v = 1 / 2 + v / (2 * m) := by
      intro im i1 i2 v hv
      have hb := abs_le.1 hv
      unfold Image.shade
      rw [i1, i2, if_neg (by linarith)]
      have e : (v - -m) / (m - -m) = 1 / 2 + v / (2 * m) := by field_simp; ring
      have k1 : -(1 / 2) ≤ v / (2 * m) := by rw [le_div_iff₀ (by positivity)]; linarith
      have k2 : v / (2 * m) ≤ 1 / 2 := by rw [div_le_iff₀ (by positivity)]; linarith
      rw [e, min_eq_right (by linarith), max_eq_right (by linarith)]
    have h00 : |(0:ℝ)| ≤ m := by simpa using hm.le
    refine ⟨m, hm, fun v hv => ⟨hle v hv, hsh a e1 e2 v (hle v hv), ?_⟩, ?_, ?_, w, hw, ?_⟩
    · rw [hsh a e1 e2 v (hle v hv), hsh b e3 e4 v (hle v hv)]
    · rw [hsh a e1 e2 0 h00]; simp
    · rw [hsh b e3 e4 0 h00]; simp
    · rw [hsh a e1 e2 w (hle w hw)]
      rcases abs_choice w with e | e
      · right
        rw [e] at hwm
        rw [hwm]; field_simp; ring
      · left
        rw [e] at hwm
        have : w = -m := by linarith
        rw [this]; field_simp; ring
  · intro h0
    have hm : m = 0 := by rw [← hwm, h0 w hw, abs_zero]
    constructor
    · unfold Image.shade; rw [e1, e2, hm, if_pos (by simp)]
    · unfold Image.shade; rw [e3, e4, hm, if_pos (by simp)]

/-- The transfer function vanishes without variance. -/
theorem lfQ_zero {n1 n2 : ℕ} [NeZero n1] [NeZero n2] (lf : LowFreq) (hc : lf.c ≤ 0) (i : Fin 2) (k : Box n1 n2 1) :
    lfQ lf i k = 0 := by
  have hphi : ∀ L psi zi dx dy k1 k2 : ℝ, lfPhi lf.c L psi zi dx dy k1 k2 = 0 := by
    intro L psi zi dx dy k1 k2
    unfold lfPhi
    simp only
    split_ifs with h1 h2
    · rfl
    · simp
    · have hneg : lf.c * Real.sqrt (max (lfKappaSq psi k1 k2) 1e-20) ^ 3 /
          ((1 / L ^ 2 + lfKappaSq psi k1 k2) ^ (7 / 3 : ℝ) * (1 + lfKappaSq psi k1 k2 * zi ^ 2)) /
          (Real.pi * Real.sqrt (k1 ^ 2 + k2 ^ 2) ^ 3) ≤ 0 := by
        apply div_nonpos_of_nonpos_of_nonneg
        · apply div_nonpos_of_nonpos_of_nonneg
          · exact mul_nonpos_of_nonpos_of_nonneg hc (by positivity)
          · push Not at h2
            exact le_trans (by norm_num) h2
        · have := Real.pi_pos
          positivity
      rw [max_eq_right hneg]
      simp
  unfold lfQ
  simp only [hphi]
  fin_cases i <;> simp

/-- **C120** For a target variance `sigma2 ≤ 0` both components vanish everywhere, so the whole picture has the colour of the lower end
of the scale — the one that otherwise stands for the strongest flow against the axis. -/
theorem C120_zero {cfg : LFConfig} (hp : cfg.Pos) (hsig : cfg.sigma2 ≤ 0) {lf : LowFreq} (h : lfInit cfg = .ok lf)
    (old oldu : Option (Mat × Mat)) (g : ℕ → ℝ) (pos : ℕ) {u1 u2 : Mat} {s : LowFreq} {p : ℕ}
    (hg : LowFreq.generate { lf with full := old, u := oldu } g pos = (.ok (u1, u2), (s, p))) :
    (∀ v, Spec.IsValue lf u1 u2 v → v = 0) ∧
      ∃ a b : Image, s.plotFields = .ok (a, b) ∧ ∀ v, Spec.IsValue lf u1 u2 v → a.shade v = 0 ∧ b.shade v = 0 := by
  obtain ⟨c, hc⟩ := lfInit_computeC h
  obtain ⟨lf0, h0, -, ec, -, -, -, -, -, -, -, -, ⟨-, g1, -, g2⟩, -, -, -, -, n1, n2⟩ := lfInit_ok hp hc
  rw [h] at h0
  obtain rfl := Except.ok.inj h0
  have hc0 : lf.c ≤ 0 := by
    rw [ec]
    by_contra hn
    exact absurd ((C71_sign hc).1 (not_le.1 hn)) (not_lt.2 hsig)
  have hzero : ∀ v, Spec.IsValue lf u1 u2 v → v = 0 := by
    obtain ⟨v1, v2, f1, f2, s', p', hg', hs, s1, s2, hent⟩ := plotFields_generate hp h old oldu g pos
    rw [hg] at hg'
    simp only [Prod.mk.injEq, Except.ok.injEq] at hg'
    obtain ⟨⟨rfl, rfl⟩, rfl, rfl⟩ := hg'
    haveI i1 : NeZero lf.compN1 := ⟨by omega⟩
    haveI i2 : NeZero lf.compN2 := ⟨by omega⟩
    have hfull : s.full = some (boxMat (lfFull lf (lfNoise g pos : Box lf.compN1 lf.compN2 1 → ℝ) 0),
        boxMat (lfFull lf (lfNoise g pos : Box lf.compN1 lf.compN2 1 → ℝ) 1)) := by
      have hpos : 0 < lf.compN1 ∧ 0 < lf.compN2 := ⟨by omega, by omega⟩
      unfold LowFreq.generate at hg
      rw [dif_pos hpos] at hg
      simp only at hg
      split at hg
      · simp at hg
      · split at hg
        · simp at hg
        · simp only [Prod.mk.injEq, Except.ok.injEq] at hg
          rw [← hg.2.1]
          rfl
    have hz : ∀ i, lfFull lf (lfNoise g pos : Box lf.compN1 lf.compN2 1 → ℝ) i = fun _ => 0 := by
      intro i
      funext x
      unfold lfFull lfField
      simp only [lfQ_zero lf hc0, zero_mul]
      unfold ifftn
      simp
    rw [hs] at hfull
    simp only [hz, Option.some.injEq, Prod.mk.injEq] at hfull
    rintro v ⟨i, hi, j, hj, hv⟩
    obtain ⟨q1, q2⟩ := hent i hi j hj
    have r1 : (lf.compN1 - lf.userN1) / 2 + i < lf.compN1 := by omega
    have r2 : (lf.compN2 - lf.userN2) / 2 + j < lf.compN2 := by omega
    rw [hfull.1] at q1
    rw [hfull.2] at q2
    unfold boxMat at q1 q2
    rw [entry_tab2 _ r1 r2] at q1 q2
    rcases hv with hv | hv
    · rw [← hv, q1]
    · rw [← hv, q2]
  refine ⟨hzero, ?_⟩
  obtain ⟨a, b, hab, -, hlow⟩ := C120_colours hp h old oldu g pos hg
  exact ⟨a, b, hab, fun v hv => by rw [hzero v hv]; exact hlow hzero⟩

/-- **C120** The distances in the picture are not those of the simulation if the requested spacings differ: with `dy < dx`, grid points
that are neighbours along `x` in the picture are drawn `dx` apart although their values were simulated `dy` apart, so structures appear
stretched along `x` by the factor `dx / dy`. -/
theorem C120_stretched {cfg : LFConfig} (hp : cfg.Pos) {lf : LowFreq} (h : lfInit cfg = .ok lf) (old oldu : Option (Mat × Mat))
    (g : ℕ → ℝ) (pos : ℕ) {u1 u2 : Mat} {s : LowFreq} {p : ℕ}
    (hg : LowFreq.generate { lf with full := old, u := oldu } g pos = (.ok (u1, u2), (s, p))) (he : lf.userDy < lf.userDx) :
    ∃ a b : Image, s.plotFields = .ok (a, b) ∧ ∃ f1 f2 : Mat, s.full = some (f1, f2) ∧ lf.compDx = lf.userDy ∧
      ∀ i < lf.userN1, ∀ j < lf.userN2,
        a.valueAt (lf.userDx * i / 1000) (lf.userDy * j / 1000) =
          some (f1.entry ((lf.compN1 - lf.userN1) / 2 + i) ((lf.compN2 - lf.userN2) / 2 + j)) ∧
        b.valueAt (lf.userDx * i / 1000) (lf.userDy * j / 1000) =
          some (f2.entry ((lf.compN1 - lf.userN1) / 2 + i) ((lf.compN2 - lf.userN2) / 2 + j)) ∧
        lf.userDx * (i + 1) - lf.userDx * i = lf.userDx / lf.userDy * lf.compDx := by
  obtain ⟨v1, v2, f1, f2, s', p', hg', hs, s1, s2, hent⟩ := plotFields_generate hp h old oldu g pos
  rw [hg] at hg'
  simp only [Prod.mk.injEq, Except.ok.injEq] at hg'
  obtain ⟨⟨rfl, rfl⟩, rfl, rfl⟩ := hg'
  obtain ⟨-, l1, l2, n1, n2, ex, ey⟩ := lfInit_fields hp h
  have q1 : (0:ℝ) < lf.userN1 := by exact_mod_cast n1
  have q2 : (0:ℝ) < lf.userN2 := by exact_mod_cast n2
  have dx : 0 < lf.userDx := by rw [ex]; positivity
  have dy : 0 < lf.userDy := by rw [ey]; positivity
  have hcd : lf.compDx = lf.userDy := by
    rw [(C67_grid hp h).2.1.1, min_eq_right he.le]
  obtain ⟨a, b, hab, hv, -⟩ := plotFields_ok hp h (some (f1, f2)) s1 s2
  refine ⟨a, b, hs ▸ hab, f1, f2, by rw [hs], hcd, fun i hi j hj => ?_⟩
  obtain ⟨e1, e2⟩ := hv i hi j hj (lf.userDx * i / 1000) (lf.userDy * j / 1000) (by linarith) (by linarith) (by linarith)
    (by linarith)
  obtain ⟨r1, r2⟩ := hent i hi j hj
  refine ⟨by rw [e1, r1], by rw [e2, r2], ?_⟩
  rw [hcd]
  field_simp
  ring

/-- The hypotheses of C120 can be met: an object with unequal requested spacings whose `generate` succeeds for every noise. -/
example : ∃ (cfg : LFConfig) (lf : LowFreq), cfg.Pos ∧ lfInit cfg = .ok lf ∧ lf.userDy < lf.userDx ∧
    ∀ old oldu g pos, ∃ r s, LowFreq.generate { lf with full := old, u := oldu } g pos = (.ok r, s) := by
  obtain ⟨c, hc⟩ := study_computeC
  let cfg : LFConfig := { domainConfig 4 with L2factor := 1, exp1 := 3, exp2 := 3 }
  have hp : cfg.Pos := by norm_num [LFConfig.Pos, domainConfig, cfg]
  obtain ⟨lf, h, -, -, -, -, l1, l2, N1, N2, ex, ey, -⟩ := lfInit_ok (cfg := cfg) hp (c := c) (by simpa [cfg, domainConfig] using hc)
  refine ⟨cfg, lf, hp, h, ?_, fun old oldu g pos => ?_⟩
  · rw [ex, ey, l1, l2, N1, N2]
    norm_num [cfg, domainConfig]
  · obtain ⟨u1, u2, f1, f2, s, p, hg, -⟩ := plotFields_generate hp h old oldu g pos
    exact ⟨_, _, hg⟩

end
end Verif
