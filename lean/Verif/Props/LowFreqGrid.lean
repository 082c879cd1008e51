import Verif.Model.LowFreq
import Mathlib.Tactic.Linarith
import Mathlib.Tactic.Ring
import Mathlib.Tactic.FieldSimp
import Mathlib.Tactic.NormNum

/-!
# The low-frequency generator: grids, extraction and interpolation (C67-C69, C72)
-/

namespace Verif

noncomputable section
open Classical

/-! ### Entries of arrays -/

theorem entry_tab2 {n1 n2 : ℕ} (f : ℕ → ℕ → ℝ) {i j : ℕ} (hi : i < n1) (hj : j < n2) : (tab2 n1 n2 f).entry i j = f i j := by
  simp [Mat.entry, tab2, List.getD_eq_getElem?_getD, hi, hj]

/-- A matrix with `n1` rows of `n2` entries. -/
def Mat.HasShape (m : Mat) (n1 n2 : ℕ) : Prop := m.length = n1 ∧ ∀ r ∈ m, r.length = n2

theorem tab2_shape (n1 n2 : ℕ) (f : ℕ → ℕ → ℝ) : (tab2 n1 n2 f).HasShape n1 n2 := by
  refine ⟨by simp [tab2], fun r hr => ?_⟩
  simp only [tab2, List.mem_map] at hr
  obtain ⟨i, _, rfl⟩ := hr
  simp

/-! ### C67 -/

theorem evenCount_spec {x : ℝ} (hx : 0 < x) :
    Even (evenCount ⌈x⌉) ∧ 2 ≤ evenCount ⌈x⌉ ∧ x ≤ evenCount ⌈x⌉ ∧ (evenCount ⌈x⌉ : ℝ) < x + 2 := by
  have hpos : 0 < ⌈x⌉ := Int.ceil_pos.2 hx
  have e : evenCount ⌈x⌉ = ⌈x⌉ + ⌈x⌉ % 2 := by
    unfold evenCount
    simp only [gt_iff_lt, hpos, if_true]
    omega
  have h1 := Int.le_ceil x
  have h2 := Int.ceil_lt_add_one x
  rw [e]
  refine ⟨?_, by omega, ?_, ?_⟩
  · rw [Int.even_iff]; omega
  · push_cast
    have : (0 : ℤ) ≤ ⌈x⌉ % 2 := by omega
    have : (0 : ℝ) ≤ ((⌈x⌉ % 2 : ℤ) : ℝ) := by exact_mod_cast this
    linarith
  · push_cast
    have : ⌈x⌉ % 2 ≤ 1 := by omega
    have : ((⌈x⌉ % 2 : ℤ) : ℝ) ≤ 1 := by exact_mod_cast this
    linarith

/-- Positivity of the user's lengths. -/
def LFConfig.Pos (cfg : LFConfig) : Prop := 0 < cfg.L2d ∧ 0 < cfg.L1factor ∧ 0 < cfg.L2factor

/-- The object the constructor builds for positive lengths, given the normalisation constant. -/
theorem lfInit_ok {cfg : LFConfig} (hp : cfg.Pos) {c : ℝ} (hc : computeC cfg.sigma2 cfg.L2d cfg.zi = .ok c) :
    ∃ lf, lfInit cfg = .ok lf ∧ lf.cfg = cfg ∧ lf.c = c ∧ lf.u = none ∧ lf.full = none ∧
      lf.userL1 = cfg.L1factor * cfg.L2d ∧ lf.userL2 = cfg.L2factor * cfg.L2d ∧
      lf.userN1 = 2 ^ cfg.exp1 ∧ lf.userN2 = 2 ^ cfg.exp2 ∧
      lf.userDx = lf.userL1 / lf.userN1 ∧ lf.userDy = lf.userL2 / lf.userN2 ∧
      (Even lf.compN1 ∧ 2 ≤ lf.compN1 ∧ Even lf.compN2 ∧ 2 ≤ lf.compN2) ∧
      (lf.compDx = min lf.userDx lf.userDy ∧ lf.compDy = min lf.userDx lf.userDy) ∧
      (lf.compL1 = lf.compN1 * lf.compDx ∧ lf.compL2 = lf.compN2 * lf.compDy) ∧
      (max lf.userL1 (5 * cfg.L2d) ≤ lf.compL1 ∧ lf.compL1 < max lf.userL1 (5 * cfg.L2d) + 2 * lf.compDx) ∧
      (max lf.userL2 (5 * cfg.L2d) ≤ lf.compL2 ∧ lf.compL2 < max lf.userL2 (5 * cfg.L2d) + 2 * lf.compDy) ∧
      lf.userN1 ≤ lf.compN1 ∧ lf.userN2 ≤ lf.compN2 := by
  obtain ⟨hL, h1, h2⟩ := hp
  set L1 := cfg.L1factor * cfg.L2d with hL1
  set L2 := cfg.L2factor * cfg.L2d with hL2
  have p1 : 0 < L1 := mul_pos h1 hL
  have p2 : 0 < L2 := mul_pos h2 hL
  set N1 : ℕ := 2 ^ cfg.exp1 with hN1
  set N2 : ℕ := 2 ^ cfg.exp2 with hN2
  have q1 : (0 : ℝ) < N1 := by rw [hN1]; positivity
  have q2 : (0 : ℝ) < N2 := by rw [hN2]; positivity
  set dx := L1 / N1 with hdx
  set dy := L2 / N2 with hdy
  have pdx : 0 < dx := div_pos p1 q1
  have pdy : 0 < dy := div_pos p2 q2
  set d := min dx dy with hd
  have pd : 0 < d := lt_min pdx pdy
  set T1 := max L1 (5 * cfg.L2d) with hT1
  set T2 := max L2 (5 * cfg.L2d) with hT2
  have t1 : 0 < T1 := lt_max_of_lt_left p1
  have t2 : 0 < T2 := lt_max_of_lt_left p2
  obtain ⟨e1, f1, g1, k1⟩ := evenCount_spec (div_pos t1 pd)
  obtain ⟨e2, f2, g2, k2⟩ := evenCount_spec (div_pos t2 pd)
  set M1 := evenCount ⌈T1 / d⌉ with hM1
  set M2 := evenCount ⌈T2 / d⌉ with hM2
  have c1 : (M1 : ℝ) = (M1.toNat : ℝ) := by
    have : ((M1.toNat : ℤ) : ℝ) = (M1 : ℝ) := by rw [Int.toNat_of_nonneg (by omega)]
    rw [← this]; push_cast; rfl
  have c2 : (M2 : ℝ) = (M2.toNat : ℝ) := by
    have : ((M2.toNat : ℤ) : ℝ) = (M2 : ℝ) := by rw [Int.toNat_of_nonneg (by omega)]
    rw [← this]; push_cast; rfl
  have b1 : T1 ≤ M1 * d := by rwa [div_le_iff₀ pd] at g1
  have b2 : T2 ≤ M2 * d := by rwa [div_le_iff₀ pd] at g2
  have u1 : (M1 : ℝ) * d < T1 + 2 * d := by
    have := mul_lt_mul_of_pos_right k1 pd
    rwa [add_mul, div_mul_cancel₀ _ pd.ne'] at this
  have u2 : (M2 : ℝ) * d < T2 + 2 * d := by
    have := mul_lt_mul_of_pos_right k2 pd
    rwa [add_mul, div_mul_cancel₀ _ pd.ne'] at this
  have hbuf : bufferSizes cfg.L2d L1 L2 dx dy = .ok (M1 * d, M2 * d, M1.toNat, M2.toNat) := by
    unfold bufferSizes
    simp only [pyDiv, ← hd, ← hT1, ← hT2, pd.ne', if_false, bind, Except.bind, pure, Except.pure, ← hM1, ← hM2]
    rw [if_neg]
    rw [not_not]
    exact ⟨by linarith [show (0 : ℝ) < 1e-9 by norm_num], by linarith [show (0 : ℝ) < 1e-9 by norm_num]⟩
  have z1 : (M1.toNat : ℝ) ≠ 0 := by rw [← c1]; have : (2 : ℝ) ≤ M1 := by exact_mod_cast f1
                                     linarith
  have z2 : (M2.toNat : ℝ) ≠ 0 := by rw [← c2]; have : (2 : ℝ) ≤ M2 := by exact_mod_cast f2
                                     linarith
  have d1 : (M1 : ℝ) * d / (M1.toNat : ℝ) = d := by rw [c1]; field_simp
  have d2 : (M2 : ℝ) * d / (M2.toNat : ℝ) = d := by rw [c2]; field_simp
  refine ⟨⟨cfg, c, L1, L2, N1, N2, dx, dy, M1 * d, M2 * d, M1.toNat, M2.toNat, d, d, none, none⟩, ?_, rfl, rfl, rfl, rfl,
    rfl, rfl, rfl, rfl, rfl, rfl, ?_, ⟨rfl, rfl⟩, ⟨by simp only; rw [c1], by simp only; rw [c2]⟩, ⟨b1, u1⟩, ⟨b2, u2⟩, ?_, ?_⟩
  · unfold lfInit
    simp only [hc, bind, Except.bind, ← hL1, ← hL2, ← hN1, ← hN2, ← hdx, ← hdy, hbuf, pyDiv, z1, z2, if_false, pure,
      Except.pure, d1, d2]
    rw [if_neg]
    rw [not_not]
    simp only [isClose, sub_self, abs_zero]
    positivity
  · simp only
    refine ⟨?_, by omega, ?_, by omega⟩
    · rw [Int.even_iff] at e1; rw [Nat.even_iff]; omega
    · rw [Int.even_iff] at e2; rw [Nat.even_iff]; omega
  · simp only
    have : (N1 : ℝ) ≤ M1.toNat := by
      rw [← c1]
      have h : (N1 : ℝ) * d ≤ M1 * d := by
        calc (N1 : ℝ) * d ≤ N1 * dx := by gcongr; exact min_le_left _ _
          _ = L1 := by rw [hdx]; field_simp
          _ ≤ T1 := le_max_left _ _
          _ ≤ _ := b1
      exact le_of_mul_le_mul_right h pd
    exact_mod_cast this
  · simp only
    have : (N2 : ℝ) ≤ M2.toNat := by
      rw [← c2]
      have h : (N2 : ℝ) * d ≤ M2 * d := by
        calc (N2 : ℝ) * d ≤ N2 * dy := by gcongr; exact min_le_right _ _
          _ = L2 := by rw [hdy]; field_simp
          _ ≤ T2 := le_max_left _ _
          _ ≤ _ := b2
      exact le_of_mul_le_mul_right h pd
    exact_mod_cast this

theorem lfInit_computeC {cfg : LFConfig} {lf : LowFreq} (h : lfInit cfg = .ok lf) :
    ∃ c, computeC cfg.sigma2 cfg.L2d cfg.zi = .ok c := by
  unfold lfInit at h
  cases hc : computeC cfg.sigma2 cfg.L2d cfg.zi with
  | error e => rw [hc] at h; simp [bind, Except.bind] at h
  | ok c => exact ⟨c, rfl⟩

/-- **C67** For positive lengths the computational grid has an even number (at least two) of points per axis, isotropic
spacing equal to the finer of the user's spacings, contains the user's domain and five length scales with fewer than two
cells to spare, and has at least as many points as the user's grid. -/
theorem C67_grid {cfg : LFConfig} (hp : cfg.Pos) {lf : LowFreq} (h : lfInit cfg = .ok lf) :
    (Even lf.compN1 ∧ 2 ≤ lf.compN1 ∧ Even lf.compN2 ∧ 2 ≤ lf.compN2) ∧
    (lf.compDx = min lf.userDx lf.userDy ∧ lf.compDy = min lf.userDx lf.userDy) ∧
    (lf.compL1 = lf.compN1 * lf.compDx ∧ lf.compL2 = lf.compN2 * lf.compDy) ∧
    (max lf.userL1 (5 * cfg.L2d) ≤ lf.compL1 ∧ lf.compL1 < max lf.userL1 (5 * cfg.L2d) + 2 * lf.compDx) ∧
    (max lf.userL2 (5 * cfg.L2d) ≤ lf.compL2 ∧ lf.compL2 < max lf.userL2 (5 * cfg.L2d) + 2 * lf.compDy) ∧
    lf.userN1 ≤ lf.compN1 ∧ lf.userN2 ≤ lf.compN2 := by
  obtain ⟨c, hc⟩ := lfInit_computeC h
  obtain ⟨lf', h', H⟩ := lfInit_ok hp hc
  rw [h] at h'
  obtain rfl := Except.ok.inj h'
  exact H.2.2.2.2.2.2.2.2.2.2

/-- **C67** For positive lengths the only thing that can make the constructor raise is the normalisation constant. -/
theorem C67_total {cfg : LFConfig} (hp : cfg.Pos) :
    (∃ lf, lfInit cfg = .ok lf) ↔ ∃ c, computeC cfg.sigma2 cfg.L2d cfg.zi = .ok c := by
  constructor
  · rintro ⟨lf, h⟩; exact lfInit_computeC h
  · rintro ⟨c, hc⟩
    obtain ⟨lf, h, _⟩ := lfInit_ok hp hc
    exact ⟨lf, h⟩

/-! ### C68 -/

theorem cut_getElem? {α : Type} {l : List α} {s n : ℕ} (h : s + n ≤ l.length) (i : ℕ) :
    (pySlice l (some (s : ℤ)) (some ((s : ℤ) + n)))[i]? = if i < n then l[s + i]? else none := by
  unfold pySlice sliceIdx
  simp only
  rw [if_neg (by omega), if_neg (by omega)]
  rw [show min ((s : ℤ).toNat) l.length = s by omega, show min (((s : ℤ) + n).toNat) l.length = s + n by omega]
  rw [List.getElem?_drop, List.getElem?_take]
  by_cases hi : i < n
  · rw [if_pos (by omega), if_pos hi]
  · rw [if_neg (by omega), if_neg hi]

theorem cut_length {α : Type} {l : List α} {s n : ℕ} (h : s + n ≤ l.length) :
    (pySlice l (some (s : ℤ)) (some ((s : ℤ) + n))).length = n := by
  unfold pySlice sliceIdx
  simp only
  rw [if_neg (by omega), if_neg (by omega)]
  rw [show min ((s : ℤ).toNat) l.length = s by omega, show min (((s : ℤ) + n).toNat) l.length = s + n by omega]
  rw [List.length_drop, List.length_take]
  omega

theorem extract_spec {m : Mat} {M1 M2 n1 n2 : ℕ} (hs : m.HasShape M1 M2) (hM : 0 < M1) (h1 : n1 ≤ M1) (h2 : n2 ≤ M2) :
    ∃ u, extractPortion n1 n2 m = .ok u ∧ u.HasShape n1 n2 ∧
      ∀ i < n1, ∀ j < n2, u.entry i j = m.entry ((M1 - n1) / 2 + i) ((M2 - n2) / 2 + j) := by
  obtain ⟨hl, hr⟩ := hs
  have hny : (m.headD []).length = M2 := by
    cases m with
    | nil => simp at hl; omega
    | cons r t => exact hr r (by simp)
  unfold extractPortion
  simp only [hl, hny]
  by_cases he : M1 = n1 ∧ M2 = n2
  · rw [if_pos he]
    refine ⟨m, rfl, ⟨by rw [hl, he.1], fun r h => by rw [hr r h, he.2]⟩, fun i _ j _ => ?_⟩
    rw [he.1, he.2]; simp
  · rw [if_neg he]
    have s1 : ((M1 : ℤ) - n1) / 2 = (((M1 - n1) / 2 : ℕ) : ℤ) := by omega
    have s2 : ((M2 : ℤ) - n2) / 2 = (((M2 - n2) / 2 : ℕ) : ℤ) := by omega
    rw [s1, s2]
    set a := (M1 - n1) / 2 with ha
    set b := (M2 - n2) / 2 with hb
    have ha' : a + n1 ≤ m.length := by omega
    rw [if_neg]
    · refine ⟨_, rfl, ⟨?_, ?_⟩, ?_⟩
      · rw [List.length_map, cut_length ha']
      · intro r h
        obtain ⟨q, hq, rfl⟩ := List.mem_map.1 h
        have : q ∈ m := by
          unfold pySlice at hq
          exact List.mem_of_mem_take (List.mem_of_mem_drop hq)
        rw [cut_length (by rw [hr q this]; omega)]
      · intro i hi j hj
        have hi' : a + i < m.length := by omega
        have hq : m[a + i]? = some m[a + i] := List.getElem?_eq_getElem hi'
        have hlen : m[a + i].length = M2 := hr _ (List.getElem_mem _)
        simp only [Mat.entry, List.getD_eq_getElem?_getD, List.getElem?_map, cut_getElem? ha', if_pos hi, hq, Option.map_some,
          Option.getD_some]
        rw [cut_getElem? (by rw [hlen]; omega), if_pos hj]
    · rw [not_or, not_not, not_not, List.length_map, cut_length ha', cut_length (by rw [List.length_range]; omega)]
      exact ⟨rfl, rfl⟩

/-- The object and state after `generate` on an object built by the constructor. -/
theorem generate_spec {cfg : LFConfig} (hp : cfg.Pos) {lf : LowFreq} (h : lfInit cfg = .ok lf) (g : ℕ → ℝ) (pos : ℕ) :
    ∃ (u1 u2 f1 f2 : Mat) (lf' : LowFreq),
      lf.generate g pos = (.ok (u1, u2), (lf', pos + lf.compN1 * lf.compN2)) ∧
      lf' = { lf with full := some (f1, f2), u := some (u1, u2) } ∧
      f1.HasShape lf.compN1 lf.compN2 ∧ f2.HasShape lf.compN1 lf.compN2 ∧
      u1.HasShape lf.userN1 lf.userN2 ∧ u2.HasShape lf.userN1 lf.userN2 ∧
      (∀ i < lf.userN1, ∀ j < lf.userN2,
        u1.entry i j = f1.entry ((lf.compN1 - lf.userN1) / 2 + i) ((lf.compN2 - lf.userN2) / 2 + j) ∧
        u2.entry i j = f2.entry ((lf.compN1 - lf.userN1) / 2 + i) ((lf.compN2 - lf.userN2) / 2 + j)) := by
  obtain ⟨⟨-, h1, -, h2⟩, -, -, -, -, n1, n2⟩ := C67_grid hp h
  have hpos : 0 < lf.compN1 ∧ 0 < lf.compN2 := ⟨by omega, by omega⟩
  unfold LowFreq.generate
  rw [dif_pos hpos]
  haveI : NeZero lf.compN1 := ⟨hpos.1.ne'⟩
  haveI : NeZero lf.compN2 := ⟨hpos.2.ne'⟩
  simp only
  set f1 := boxMat (lfFull lf (lfNoise g pos : Box lf.compN1 lf.compN2 1 → ℝ) 0) with hf1
  set f2 := boxMat (lfFull lf (lfNoise g pos : Box lf.compN1 lf.compN2 1 → ℝ) 1) with hf2
  have s1 : f1.HasShape lf.compN1 lf.compN2 := tab2_shape _ _ _
  have s2 : f2.HasShape lf.compN1 lf.compN2 := tab2_shape _ _ _
  obtain ⟨u1, e1, t1, v1⟩ := extract_spec s1 hpos.1 n1 n2
  obtain ⟨u2, e2, t2, v2⟩ := extract_spec s2 hpos.1 n1 n2
  refine ⟨u1, u2, f1, f2, _, ?_, rfl, s1, s2, t1, t2, fun i hi j hj => ⟨v1 i hi j hj, v2 i hi j hj⟩⟩
  rw [e1]
  simp only
  rw [e2]

/-- **C68** On an object built with positive lengths, `generate` never raises, both returned arrays have exactly the
requested number of points, they are the window of the full fields starting at the floor of half the surplus, and the
margins on the two sides differ by at most one point. -/
theorem C68_window {cfg : LFConfig} (hp : cfg.Pos) {lf : LowFreq} (h : lfInit cfg = .ok lf) (g : ℕ → ℝ) (pos : ℕ) :
    ∃ (u1 u2 f1 f2 : Mat) (lf' : LowFreq) (pos' a b a' b' : ℕ),
      lf.generate g pos = (.ok (u1, u2), (lf', pos')) ∧ lf'.full = some (f1, f2) ∧ lf'.u = some (u1, u2) ∧
      u1.HasShape (2 ^ cfg.exp1) (2 ^ cfg.exp2) ∧ u2.HasShape (2 ^ cfg.exp1) (2 ^ cfg.exp2) ∧
      a + 2 ^ cfg.exp1 + a' = f1.length ∧ (∀ r ∈ f1, b + 2 ^ cfg.exp2 + b' = r.length) ∧
      a ≤ a' ∧ a' ≤ a + 1 ∧ b ≤ b' ∧ b' ≤ b + 1 ∧
      (∀ i < 2 ^ cfg.exp1, ∀ j < 2 ^ cfg.exp2,
        u1.entry i j = f1.entry (a + i) (b + j) ∧ u2.entry i j = f2.entry (a + i) (b + j)) := by
  obtain ⟨c, hc⟩ := lfInit_computeC h
  obtain ⟨lf0, h0, -, -, -, -, -, -, N1, N2, -, -, -, -, -, -, -, hn1, hn2⟩ := lfInit_ok hp hc
  rw [h] at h0
  obtain rfl := Except.ok.inj h0
  obtain ⟨u1, u2, f1, f2, lf', hg, he, s1, s2, t1, t2, hv⟩ := generate_spec hp h g pos
  rw [N1] at t1 t2 hv hn1
  rw [N2] at t1 t2 hv hn2
  refine ⟨u1, u2, f1, f2, lf', _, (lf.compN1 - 2 ^ cfg.exp1) / 2, (lf.compN2 - 2 ^ cfg.exp2) / 2,
    lf.compN1 - 2 ^ cfg.exp1 - (lf.compN1 - 2 ^ cfg.exp1) / 2, lf.compN2 - 2 ^ cfg.exp2 - (lf.compN2 - 2 ^ cfg.exp2) / 2,
    hg, by rw [he], by rw [he], t1, t2, ?_, ?_, by omega, by omega, by omega, by omega, hv⟩
  · rw [s1.1]; omega
  · intro r hr; rw [s1.2 r hr]; omega

/-! ### C69 -/

/-- **C69** (partial: only for equal user spacings) If the two requested spacings agree, adjacent samples of the returned
field are neighbours on the simulated grid at exactly the requested distance, so the returned window covers the requested
lengths. -/
theorem C69_extent_partial {cfg : LFConfig} (hp : cfg.Pos) {lf : LowFreq} (h : lfInit cfg = .ok lf)
    (he : lf.userDx = lf.userDy) :
    lf.compDx = lf.userDx ∧ lf.compDy = lf.userDy ∧ lf.userN1 * lf.compDx = lf.userL1 ∧ lf.userN2 * lf.compDy = lf.userL2 := by
  obtain ⟨c, hc⟩ := lfInit_computeC h
  obtain ⟨lf0, h0, -, -, -, -, -, -, N1, N2, ex, ey, -, ⟨dx, dy⟩, -⟩ := lfInit_ok hp hc
  rw [h] at h0
  obtain rfl := Except.ok.inj h0
  have q1 : (lf.userN1 : ℝ) ≠ 0 := by rw [N1]; positivity
  have q2 : (lf.userN2 : ℝ) ≠ 0 := by rw [N2]; positivity
  rw [he, min_self] at dx dy
  refine ⟨by rw [dx, he], dy, ?_, ?_⟩
  · rw [dx, ← he, ex]; field_simp
  · rw [dy, ey]; field_simp

/-- **C69** fails for unequal spacings: along the axis with the coarser requested spacing the returned samples are closer
together than requested, and the returned field covers strictly less than the requested length. -/
theorem C69_extent_refuted {cfg : LFConfig} (hp : cfg.Pos) {lf : LowFreq} (h : lfInit cfg = .ok lf)
    (he : lf.userDy < lf.userDx) :
    lf.compDx < lf.userDx ∧ lf.userN1 * lf.compDx < lf.userL1 ∧
      lf.userN1 * lf.compDx = lf.userL1 * (lf.userDy / lf.userDx) := by
  obtain ⟨c, hc⟩ := lfInit_computeC h
  obtain ⟨lf0, h0, -, -, -, -, l1, -, N1, N2, ex, ey, -, ⟨dx, dy⟩, -⟩ := lfInit_ok hp hc
  rw [h] at h0
  obtain rfl := Except.ok.inj h0
  have q1 : (0 : ℝ) < lf.userN1 := by rw [N1]; positivity
  have p1 : 0 < lf.userL1 := by rw [l1]; exact mul_pos hp.2.1 hp.1
  rw [min_eq_right he.le] at dx
  have hlt : (lf.userN1 : ℝ) * lf.userDx = lf.userL1 := by rw [ex]; field_simp
  refine ⟨by rw [dx]; exact he, ?_, ?_⟩
  · rw [dx, ← hlt]; exact mul_lt_mul_of_pos_left he q1
  · have : 0 < lf.userDx := by rw [ex]; positivity
    rw [dx, ← hlt]; field_simp

/-! ### C72 -/

theorem lfCoords_length (L : ℝ) (N : ℕ) : (lfCoords L N).length = N := by simp [lfCoords]

theorem lfCoords_getD {L : ℝ} {N i : ℕ} (h : i < N) : (lfCoords L N).getD i 0 = i * (L / N) := by
  simp [lfCoords, List.getD_eq_getElem?_getD, h]

theorem lfCoords_head {L : ℝ} {N : ℕ} (h : 0 < N) : (lfCoords L N).headD 0 = 0 := by
  obtain ⟨n, rfl⟩ := Nat.exists_eq_succ_of_ne_zero h.ne'
  simp [lfCoords, List.range_succ_eq_map]

theorem lfCoords_last {L : ℝ} {N : ℕ} (h : 0 < N) : (lfCoords L N).getLastD 0 = ((N - 1 : ℕ) : ℝ) * (L / N) := by
  obtain ⟨n, rfl⟩ := Nat.exists_eq_succ_of_ne_zero h.ne'
  simp [lfCoords, List.range_succ]

theorem countP_range_le (N : ℕ) (k : ℕ) : (List.range N).countP (fun i => decide (i ≤ k)) = min N (k + 1) := by
  induction N with
  | zero => simp
  | succ n ih =>
    rw [List.range_succ, List.countP_append, ih, List.countP_singleton]
    by_cases h : n ≤ k
    · simp [h]; omega
    · simp [h]; omega

theorem findInterval_coords {L : ℝ} {N : ℕ} (hL : 0 < L) (hN : 0 < N) {x : ℝ} {k : ℕ} (h1 : (k : ℝ) * (L / N) ≤ x)
    (h2 : x < ((k : ℝ) + 1) * (L / N)) : findInterval (lfCoords L N) x = min (min N (k + 1) - 1) (N - 2) := by
  have hd : 0 < L / N := div_pos hL (by exact_mod_cast hN)
  unfold findInterval
  rw [lfCoords_length]
  congr 2
  unfold lfCoords
  rw [List.countP_map, ← countP_range_le N k]
  congr 1
  funext i
  simp only [Function.comp]
  congr 1
  rw [eq_iff_iff]
  constructor
  · intro h
    by_contra hc
    have : (k : ℝ) + 1 ≤ i := by exact_mod_cast (by omega : k + 1 ≤ i)
    have := mul_le_mul_of_nonneg_right this hd.le
    linarith
  · intro h
    have : (i : ℝ) ≤ k := by exact_mod_cast h
    have := mul_le_mul_of_nonneg_right this hd.le
    linarith

/-- One-dimensional interpolation weights at the point `(i + s) dx`, applied to any node values. -/
theorem interp_axis {L : ℝ} {N : ℕ} (hL : 0 < L) {i : ℕ} (hi : i + 1 < N) {s : ℝ} (h0 : 0 ≤ s) (h1 : s ≤ 1)
    (v : ℕ → ℝ) :
    let x := ((i : ℝ) + s) * (L / N)
    (1 - normDist (lfCoords L N) x) * v (findInterval (lfCoords L N) x) +
      normDist (lfCoords L N) x * v (findInterval (lfCoords L N) x + 1) = (1 - s) * v i + s * v (i + 1) := by
  intro x
  have hN : (0 : ℝ) < N := by exact_mod_cast (by omega : 0 < N)
  have hd : 0 < L / N := div_pos hL hN
  have nd : ∀ j : ℕ, j + 1 < N → findInterval (lfCoords L N) x = j →
      normDist (lfCoords L N) x = (i : ℝ) + s - j := by
    intro j hj e
    unfold normDist
    simp only
    rw [e, lfCoords_getD (by omega), lfCoords_getD (by omega)]
    rw [div_eq_iff (by push_cast; nlinarith)]
    push_cast
    ring
  rcases lt_or_eq_of_le h1 with hlt | rfl
  · have e : findInterval (lfCoords L N) x = i := by
      rw [findInterval_coords hL (by omega) (k := i)]
      · omega
      · exact mul_le_mul_of_nonneg_right (by linarith) hd.le
      · exact mul_lt_mul_of_pos_right (by linarith) hd
    rw [nd i hi e, e]
    ring
  · have e : findInterval (lfCoords L N) x = min (i + 1) (N - 2) := by
      rw [findInterval_coords hL (by omega) (k := i + 1)]
      · omega
      · exact mul_le_mul_of_nonneg_right (by push_cast; linarith) hd.le
      · exact mul_lt_mul_of_pos_right (by push_cast; linarith) hd
    by_cases hb : i + 1 ≤ N - 2
    · rw [min_eq_left hb] at e
      rw [nd (i + 1) (by omega) e, e]
      push_cast
      ring
    · have e' : findInterval (lfCoords L N) x = i := by rw [e]; omega
      rw [nd i hi e', e']
      ring

/-- **C72** Between nodes the returned value is the bilinear interpolation of the four surrounding samples. -/
theorem C72_bilinear {L1 L2 : ℝ} {N1 N2 : ℕ} (hL1 : 0 < L1) (hL2 : 0 < L2) (m : Mat) {i j : ℕ} (hi : i + 1 < N1)
    (hj : j + 1 < N2) {s t : ℝ} (hs0 : 0 ≤ s) (hs1 : s ≤ 1) (ht0 : 0 ≤ t) (ht1 : t ≤ 1) :
    interpAt (lfCoords L1 N1) (lfCoords L2 N2) m (((i : ℝ) + s) * (L1 / N1)) (((j : ℝ) + t) * (L2 / N2)) =
      (1 - s) * (1 - t) * m.entry i j + (1 - s) * t * m.entry i (j + 1) + s * (1 - t) * m.entry (i + 1) j +
        s * t * m.entry (i + 1) (j + 1) := by
  have d1 : 0 < L1 / N1 := div_pos hL1 (by exact_mod_cast (by omega : 0 < N1))
  have d2 : 0 < L2 / N2 := div_pos hL2 (by exact_mod_cast (by omega : 0 < N2))
  unfold interpAt
  rw [lfCoords_head (by omega), lfCoords_head (by omega), lfCoords_last (by omega), lfCoords_last (by omega), if_neg]
  · simp only
    have hx := fun v => interp_axis hL1 hi hs0 hs1 v
    have hy := fun v => interp_axis hL2 hj ht0 ht1 v
    simp only at hx hy
    set x := ((i : ℝ) + s) * (L1 / N1)
    set y := ((j : ℝ) + t) * (L2 / N2)
    set S := normDist (lfCoords L1 N1) x
    set T := normDist (lfCoords L2 N2) y
    set I := findInterval (lfCoords L1 N1) x
    set J := findInterval (lfCoords L2 N2) y
    have a1 := hx (fun a => (1 - T) * m.entry a J + T * m.entry a (J + 1))
    have a2 := hy (fun b => m.entry i b)
    have a3 := hy (fun b => m.entry (i + 1) b)
    beta_reduce at a1 a2 a3
    rw [a2, a3] at a1
    linear_combination a1
  · push Not
    have b1 : (i : ℝ) + 1 ≤ ((N1 - 1 : ℕ) : ℝ) := by exact_mod_cast (by omega : i + 1 ≤ N1 - 1)
    have b2 : (j : ℝ) + 1 ≤ ((N2 - 1 : ℕ) : ℝ) := by exact_mod_cast (by omega : j + 1 ≤ N2 - 1)
    have c1 : (0 : ℝ) ≤ i := Nat.cast_nonneg i
    have c2 : (0 : ℝ) ≤ j := Nat.cast_nonneg j
    refine ⟨by positivity, ?_, by positivity, ?_⟩
    · exact mul_le_mul_of_nonneg_right (by linarith) d1.le
    · exact mul_le_mul_of_nonneg_right (by linarith) d2.le

/-- **C72** At the nodes of the user's grid the returned value is the generated sample. -/
theorem C72_nodes {L1 L2 : ℝ} {N1 N2 : ℕ} (hL1 : 0 < L1) (hL2 : 0 < L2) (hN1 : 2 ≤ N1) (hN2 : 2 ≤ N2) (m : Mat) {i j : ℕ}
    (hi : i < N1) (hj : j < N2) :
    interpAt (lfCoords L1 N1) (lfCoords L2 N2) m ((i : ℝ) * (L1 / N1)) ((j : ℝ) * (L2 / N2)) = m.entry i j := by
  -- write each index as `i' + s` with `i' + 1 < N`
  have split : ∀ {N k : ℕ}, 2 ≤ N → k < N → ∃ (a : ℕ) (s : ℝ), a + 1 < N ∧ (s = 0 ∧ k = a ∨ s = 1 ∧ k = a + 1) := by
    intro N k hN hk
    by_cases h : k + 1 < N
    · exact ⟨k, 0, h, Or.inl ⟨rfl, rfl⟩⟩
    · exact ⟨k - 1, 1, by omega, Or.inr ⟨rfl, by omega⟩⟩
  obtain ⟨a, s, ha, hs⟩ := split hN1 hi
  obtain ⟨b, t, hb, ht⟩ := split hN2 hj
  have := C72_bilinear hL1 hL2 m ha hb (s := s) (t := t) (by rcases hs with h | h <;> rw [h.1] <;> norm_num)
    (by rcases hs with h | h <;> rw [h.1] <;> norm_num) (by rcases ht with h | h <;> rw [h.1] <;> norm_num)
    (by rcases ht with h | h <;> rw [h.1] <;> norm_num)
  rcases hs with ⟨rfl, rfl⟩ | ⟨rfl, rfl⟩ <;> rcases ht with ⟨rfl, rfl⟩ | ⟨rfl, rfl⟩ <;> simpa using this

/-- **C72** The returned value never leaves the range of the generated samples. -/
theorem C72_bounded {L1 L2 : ℝ} {N1 N2 : ℕ} (hL1 : 0 < L1) (hL2 : 0 < L2) (m : Mat) {lo hi : ℝ} (h0 : lo ≤ 0) (h0' : 0 ≤ hi)
    (hN1 : 2 ≤ N1) (hN2 : 2 ≤ N2) (hm : ∀ i < N1, ∀ j < N2, lo ≤ m.entry i j ∧ m.entry i j ≤ hi) (x y : ℝ) :
    lo ≤ interpAt (lfCoords L1 N1) (lfCoords L2 N2) m x y ∧ interpAt (lfCoords L1 N1) (lfCoords L2 N2) m x y ≤ hi := by
  have loc : ∀ {L : ℝ} {N : ℕ}, 0 < L → 2 ≤ N → ∀ {z : ℝ}, 0 ≤ z → z ≤ ((N - 1 : ℕ) : ℝ) * (L / N) →
      ∃ (a : ℕ) (s : ℝ), a + 1 < N ∧ 0 ≤ s ∧ s ≤ 1 ∧ z = ((a : ℝ) + s) * (L / N) := by
    intro L N hL hN z hz hz'
    have hd : 0 < L / N := div_pos hL (by exact_mod_cast (by omega : 0 < N))
    have hq : 0 ≤ z / (L / N) := by positivity
    have hf := Nat.floor_le hq
    have hf' := Nat.lt_floor_add_one (z / (L / N))
    have hup : z / (L / N) ≤ ((N - 1 : ℕ) : ℝ) := by rwa [div_le_iff₀ hd]
    by_cases h : ⌊z / (L / N)⌋₊ + 1 < N
    · exact ⟨_, z / (L / N) - ⌊z / (L / N)⌋₊, h, by linarith, by linarith, by field_simp; ring⟩
    · have hge : N - 1 ≤ ⌊z / (L / N)⌋₊ := by omega
      have : ((N - 1 : ℕ) : ℝ) ≤ ⌊z / (L / N)⌋₊ := by exact_mod_cast hge
      have he : z / (L / N) = ((N - 1 : ℕ) : ℝ) := le_antisymm hup (by linarith)
      refine ⟨N - 2, 1, by omega, zero_le_one, le_refl _, ?_⟩
      rw [div_eq_iff hd.ne'] at he
      rw [he]
      congr 1
      have : N - 1 = N - 2 + 1 := by omega
      rw [this]; push_cast; ring
  by_cases hout : x < 0 ∨ ((N1 - 1 : ℕ) : ℝ) * (L1 / N1) < x ∨ y < 0 ∨ ((N2 - 1 : ℕ) : ℝ) * (L2 / N2) < y
  · unfold interpAt
    rw [lfCoords_head (by omega), lfCoords_head (by omega), lfCoords_last (by omega), lfCoords_last (by omega), if_pos hout]
    exact ⟨h0, h0'⟩
  · push Not at hout
    obtain ⟨x0, x1, y0, y1⟩ := hout
    obtain ⟨i, s, hi', s0, s1, rfl⟩ := loc hL1 hN1 x0 x1
    obtain ⟨j, t, hj', t0, t1, rfl⟩ := loc hL2 hN2 y0 y1
    rw [C72_bilinear hL1 hL2 m hi' hj' s0 s1 t0 t1]
    obtain ⟨a1, a2⟩ := hm i (by omega) j (by omega)
    obtain ⟨b1, b2⟩ := hm i (by omega) (j + 1) hj'
    obtain ⟨c1, c2⟩ := hm (i + 1) hi' j (by omega)
    obtain ⟨d1, d2⟩ := hm (i + 1) hi' (j + 1) hj'
    have w1 : 0 ≤ (1 - s) * (1 - t) := mul_nonneg (by linarith) (by linarith)
    have w2 : 0 ≤ (1 - s) * t := mul_nonneg (by linarith) t0
    have w3 : 0 ≤ s * (1 - t) := mul_nonneg s0 (by linarith)
    have w4 : 0 ≤ s * t := mul_nonneg s0 t0
    constructor
    · nlinarith [mul_le_mul_of_nonneg_left a1 w1, mul_le_mul_of_nonneg_left b1 w2, mul_le_mul_of_nonneg_left c1 w3,
        mul_le_mul_of_nonneg_left d1 w4]
    · nlinarith [mul_le_mul_of_nonneg_left a2 w1, mul_le_mul_of_nonneg_left b2 w2, mul_le_mul_of_nonneg_left c2 w3,
        mul_le_mul_of_nonneg_left d2 w4]

/-- **C72** Outside the range of the nodes - in particular in the last cell of the user's domain, between the last node
and the domain length - the returned value is 0. -/
theorem C72_outside {L1 L2 : ℝ} {N1 N2 : ℕ} (hN1 : 0 < N1) (hN2 : 0 < N2) (m : Mat) {x y : ℝ}
    (h : x < 0 ∨ L1 - L1 / N1 < x ∨ y < 0 ∨ L2 - L2 / N2 < y) :
    interpAt (lfCoords L1 N1) (lfCoords L2 N2) m x y = 0 := by
  have e : ∀ {L : ℝ} {N : ℕ}, 0 < N → ((N - 1 : ℕ) : ℝ) * (L / N) = L - L / N := by
    intro L N hN
    have : (N : ℝ) ≠ 0 := by exact_mod_cast hN.ne'
    rw [Nat.cast_sub hN]; field_simp; push_cast; ring
  unfold interpAt
  rw [lfCoords_head hN1, lfCoords_head hN2, lfCoords_last hN1, lfCoords_last hN2, e hN1, e hN2, if_pos h]

/-- **C72** `interp_slice` raises `RuntimeError` exactly when no field has been generated; otherwise both results have the
shape of the target grid and their entries are the pointwise interpolations. -/
theorem C72_slice (lf : LowFreq) (xt yt : List ℝ) :
    (lf.u = none → lf.interpSlice xt yt = .error .runtimeError) ∧
    (∀ u1 u2, lf.u = some (u1, u2) → ∃ a b, lf.interpSlice xt yt = .ok (a, b) ∧
      a.HasShape xt.length yt.length ∧ b.HasShape xt.length yt.length ∧
      ∀ i (hi : i < xt.length) j (hj : j < yt.length),
        a.entry i j = interpAt (lfCoords lf.userL1 lf.userN1) (lfCoords lf.userL2 lf.userN2) u1 xt[i] yt[j] ∧
        b.entry i j = interpAt (lfCoords lf.userL1 lf.userN1) (lfCoords lf.userL2 lf.userN2) u2 xt[i] yt[j]) := by
  constructor
  · intro h; unfold LowFreq.interpSlice; rw [h]; rfl
  · intro u1 u2 h
    unfold LowFreq.interpSlice
    rw [h]
    refine ⟨_, _, rfl, ⟨by simp, ?_⟩, ⟨by simp, ?_⟩, ?_⟩
    · intro r hr; obtain ⟨q, _, rfl⟩ := List.mem_map.1 hr; simp
    · intro r hr; obtain ⟨q, _, rfl⟩ := List.mem_map.1 hr; simp
    · intro i hi j hj
      simp [Mat.entry, List.getD_eq_getElem?_getD, hi, hj]

end
end Verif
