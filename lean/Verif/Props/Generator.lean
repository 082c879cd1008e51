import Verif.Lemmas.Generator

/-!
# The fluctuation field generator: shapes, noise stream, histories, validation, normalisation (C49 - C55, C57, C58)
-/

namespace Verif
open Fl

noncomputable section
open Classical

/-! ### What the constructor delivers -/

theorem lf_generate_ready {lf lf' : LowFreq} {glob : ℕ → ℝ} {p q : ℕ} {x}
    (h : lf.generate glob p = (.ok x, (lf', q))) : ∃ u, lf'.u = some u := by
  unfold LowFreq.generate at h
  by_cases hp : 0 < lf.compN1 ∧ 0 < lf.compN2
  · rw [dif_pos hp] at h
    simp only at h
    split at h
    · simp at h
    · split at h
      · simp at h
      · simp only [Prod.mk.injEq] at h
        rw [← h.2.1]
        exact ⟨_, rfl⟩
  · rw [dif_neg hp] at h
    simp at h

theorem genInit_ok {env : GenEnv} {a : GenArgs} {g : Gen} {q : ℕ} (h : genInit env a = (.ok g, q)) :
    ∃ kernel L T, genScales env a = .ok (kernel, L, T) ∧ g.Fresh ∧ g.LowReady ∧
      (g.d1 = a.d1 ∧ g.d2 = a.d2 ∧ g.d3 = a.d3) ∧ (g.l1 = a.l1 ∧ g.l2 = a.l2 ∧ g.l3 = a.l3) ∧
      (a.d1 ≠ 0 ∧ a.d2 ≠ 0 ∧ a.d3 ≠ 0) ∧
      (g.bn = a.bn ∧ g.nb = ⌈3 * T * L / (a.d1 / (2 ^ a.l1 + 1 : ℕ))⌉ ∧ g.my = ⌈L / (a.d2 / (2 ^ a.l2 + 1 : ℕ))⌉ ∧
        g.mz = ⌈L / (a.d3 / (2 ^ a.l3 + 1 : ℕ))⌉) ∧
      g.kernel = kernel ∧ (g.gauss = match a.seed with | some s => env.seeded s | none => env.entropy) ∧
      (0 < g.shape1 ∧ 0 < g.shape2 ∧ 0 < g.shape3) ∧
      grfInit 3 (.array [a.l1, a.l2, a.l3]) (some (.array [g.shape1.toNat, g.shape2.toNat, g.shape3.toNat]))
        [a.d1, a.d2, a.d3] .vfFftw = .ok g.rf ∧
      (a.low = none → g.low = none) ∧
      (∀ cfg, a.low = some cfg → ∃ lf lf' x, lfInit cfg = .ok lf ∧ lf.generate env.glob env.globPos = (.ok x, (lf', q)) ∧
        g.low = some lf') := by
  unfold genInit at h
  cases hs : genScales env a with
  | error e => rw [hs] at h; simp at h
  | ok r =>
    obtain ⟨kernel, L, T⟩ := r
    rw [hs] at h
    simp only at h
    have hcd : ∀ x y : ℝ, (∃ z, ceilDiv x y = .ok z) → ceilDiv x y = .ok ⌈x / y⌉ ∧ y ≠ 0 := by
      intro x y hz
      unfold ceilDiv at *
      by_cases hy : y = 0
      · rw [if_pos hy] at hz
        obtain ⟨z, hz⟩ := hz
        split_ifs at hz
      · rw [if_neg hy]; exact ⟨rfl, hy⟩
    cases h1 : ceilDiv (3 * T * L) (a.d1 / (2 ^ a.l1 + 1 : ℕ)) with
    | error e => rw [h1] at h; simp at h
    | ok nb =>
    cases h2 : ceilDiv L (a.d2 / (2 ^ a.l2 + 1 : ℕ)) with
    | error e => rw [h1, h2] at h; simp at h
    | ok my =>
    cases h3 : ceilDiv L (a.d3 / (2 ^ a.l3 + 1 : ℕ)) with
    | error e => rw [h1, h2, h3] at h; simp at h
    | ok mz =>
    rw [h1, h2, h3] at h
    simp only at h
    obtain ⟨k1, y1⟩ := hcd _ _ ⟨nb, h1⟩
    obtain ⟨k2, y2⟩ := hcd _ _ ⟨my, h2⟩
    obtain ⟨k3, y3⟩ := hcd _ _ ⟨mz, h3⟩
    rw [h1] at k1
    rw [h2] at k2
    rw [h3] at k3
    have k1 := Except.ok.inj k1
    have k2 := Except.ok.inj k2
    have k3 := Except.ok.inj k3
    have hd : a.d1 ≠ 0 ∧ a.d2 ≠ 0 ∧ a.d3 ≠ 0 := by
      refine ⟨?_, ?_, ?_⟩ <;> intro h0
      · exact y1 (by rw [h0, zero_div])
      · exact y2 (by rw [h0, zero_div])
      · exact y3 (by rw [h0, zero_div])
    by_cases hc : (((2 ^ a.l1 + 1 : ℕ) : ℤ) + (2 * nb + blendExt a.bn) ≤ 0 ∨ ((2 ^ a.l2 + 1 : ℕ) : ℤ) + 2 * my ≤ 0 ∨
        ((2 ^ a.l3 + 1 : ℕ) : ℤ) + 2 * mz ≤ 0)
    · rw [if_pos hc] at h; simp at h
    rw [if_neg hc] at h
    simp only [not_or, not_le] at hc
    cases hg : grfInit 3 (.array [a.l1, a.l2, a.l3])
        (some (.array [(((2 ^ a.l1 + 1 : ℕ) : ℤ) + (2 * nb + blendExt a.bn)).toNat, (((2 ^ a.l2 + 1 : ℕ) : ℤ) + 2 * my).toNat,
          (((2 ^ a.l3 + 1 : ℕ) : ℤ) + 2 * mz).toNat])) [a.d1, a.d2, a.d3] .vfFftw with
    | error e => rw [hg] at h; simp at h
    | ok rf =>
    rw [hg] at h
    simp only at h
    refine ⟨kernel, L, T, rfl, ?_⟩
    cases hl : a.low with
    | none =>
      rw [hl] at h
      simp only [Prod.mk.injEq, Except.ok.injEq] at h
      obtain ⟨rfl, -⟩ := h
      refine ⟨⟨rfl, rfl, rfl, rfl⟩, ?_, ⟨rfl, rfl, rfl⟩, ⟨rfl, rfl, rfl⟩, hd, ⟨rfl, k1, k2, k3⟩, rfl, rfl, hc, hg, fun _ => rfl, ?_⟩
      · intro lf h; cases h
      · intro cfg h; cases h
    | some cfg =>
      rw [hl] at h
      simp only at h
      cases hi : lfInit cfg with
      | error e => rw [hi] at h; simp at h
      | ok lf =>
        rw [hi] at h
        simp only at h
        rcases hr : lf.generate env.glob env.globPos with ⟨r, lf', pos⟩
        rw [hr] at h
        cases r with
        | error e => simp at h
        | ok x =>
          simp only [Prod.mk.injEq, Except.ok.injEq] at h
          obtain ⟨rfl, rfl⟩ := h
          refine ⟨⟨rfl, rfl, rfl, rfl⟩, ?_, ⟨rfl, rfl, rfl⟩, ⟨rfl, rfl, rfl⟩, hd, ⟨rfl, k1, k2, k3⟩, rfl, rfl, hc, hg,
            fun h => (by cases h), ?_⟩
          · intro lf2 h
            rw [← Option.some.inj h]
            exact lf_generate_ready hr
          · intro cfg' h
            cases h
            exact ⟨lf, lf', x, hi, hr, rfl⟩

/-- Positive dimensions and positive length and time scales (in the DRD case these come from the trained model and are
positive as soon as the reference height is). -/
def GenArgs.PosScales (a : GenArgs) : Prop :=
  (0 < a.d1 ∧ 0 < a.d2 ∧ 0 < a.d3) ∧ (a.model = "DRD" → 0 < a.zref) ∧
    (a.model ≠ "DRD" → ∃ L T, a.length = some L ∧ a.time = some T ∧ 0 < L ∧ 0 < T)

theorem genScales_pos {env : GenEnv} {a : GenArgs} {kernel : GenKernel} {L T : ℝ} (ha : a.PosScales)
    (h : genScales env a = .ok (kernel, L, T)) : 0 < L ∧ 0 < T := by
  unfold genScales at h
  by_cases h1 : a.model ∉ ["DRD", "VK", "Mann"]
  · rw [if_pos h1] at h; cases h
  rw [if_neg h1] at h
  by_cases h2 : a.model = "DRD"
  · rw [if_pos h2] at h
    cases hp : a.path with
    | none => rw [hp] at h; cases h
    | some f =>
    rw [hp] at h
    simp only at h
    cases hm : loadModel env.hyp env.netSeed env.netNoise f env.fs with
    | error e => rw [hm] at h; cases h
    | ok ops =>
    rw [hm] at h
    simp only at h
    cases hh : heightPower a.zref with
    | error e => rw [hh] at h; cases h
    | ok hp =>
    rw [hh] at h
    simp only at h
    cases hk : ops.kind with
    | taunet net =>
      rw [hk] at h
      simp only [Except.ok.injEq, Prod.mk.injEq] at h
      obtain ⟨-, rfl, rfl⟩ := h
      have := ha.2.1 h2
      unfold OPS.expScalesValue
      exact ⟨mul_pos (Real.exp_pos _) this, Real.exp_pos _⟩
    | _ => rw [hk] at h; cases h
  · rw [if_neg h2] at h
    obtain ⟨L', T', e1, e2, p1, p2⟩ := ha.2.2 h2
    rw [e1, e2] at h
    cases he : a.energy with
    | none => rw [he] at h; cases h
    | some e =>
    rw [he] at h
    simp only at h
    cases hh : heightPower a.zref with
    | error e => rw [hh] at h; cases h
    | ok hp =>
    rw [hh] at h
    simp only [Except.ok.injEq, Prod.mk.injEq] at h
    obtain ⟨-, rfl, rfl⟩ := h
    exact ⟨p1, p2⟩

theorem genInit_good {env : GenEnv} {a : GenArgs} {g : Gen} {q : ℕ} (ha : a.PosScales) (h : genInit env a = (.ok g, q)) :
    g.Good := by
  obtain ⟨kernel, L, T, hs, -, -, -, -, -, ⟨-, e1, e2, e3⟩, -⟩ := genInit_ok h
  obtain ⟨pL, pT⟩ := genScales_pos ha hs
  obtain ⟨⟨p1, p2, p3⟩, -⟩ := ha
  refine ⟨?_, ?_, ?_⟩
  · rw [e1, Int.ceil_pos]; positivity
  · rw [e2, Int.ceil_pos]; positivity
  · rw [e3, Int.ceil_pos]; positivity

/-! ### C49 -/

/-- **C49.**  After any history of `generate` calls the accumulated field consists of whole blocks of
`2^lx + 1` planes, every plane having `(2^ly + 1) x (2^lz + 1)` points, and when no call has failed the number of blocks is
the total number requested. -/
theorem C49_shapes {env : GenEnv} {a : GenArgs} {g : Gen} {q : ℕ} (ha : a.PosScales) (h : genInit env a = (.ok g, q))
    (cs : List (ℕ × ProfileArgs)) :
    ∃ k ≤ (cs.map Prod.fst).sum, (g.run cs).2.total.Shape (k * (2 ^ a.l1 + 1)) (2 ^ a.l2 + 1) (2 ^ a.l3 + 1) ∧
      ((∀ r ∈ (g.run cs).1, ∃ f, r = .ok f) → k = (cs.map Prod.fst).sum) := by
  obtain ⟨kernel, L, T, hs, hf, hl, -, ⟨l1, l2, l3⟩, -⟩ := genInit_ok h
  have hg := genInit_good ha h
  obtain ⟨j', k', tot', e, s, b1, b2, b3, b4⟩ := run_st hg hl cs 0 0 ⟨g.Ny, g.Nz, []⟩
    ⟨rfl, rfl, by simp, fun p hp => by cases hp⟩
  rw [hf.st] at e b4
  refine ⟨k', by omega, ?_, fun hr => by have := (b4 hr).1; omega⟩
  rw [e]
  rw [← l1, ← l2, ← l3]
  exact s

/-- Once the scales are found (non-negative) the constructor accepts every box with positive dimensions. -/
theorem genInit_of_scales {env : GenEnv} {a : GenArgs} {k : GenKernel} {L T : ℝ} (hs : genScales env a = .ok (k, L, T))
    (hd : 0 < a.d1 ∧ 0 < a.d2 ∧ 0 < a.d3) (h0 : 0 ≤ L ∧ 0 ≤ T) (hlow : a.low = none) :
    ∃ g, genInit env a = (.ok g, env.globPos) := by
  obtain ⟨d1, d2, d3⟩ := hd
  obtain ⟨q1, q2⟩ := h0
  have cd : ∀ x y : ℝ, y ≠ 0 → ceilDiv x y = .ok ⌈x / y⌉ := fun x y h => by unfold ceilDiv; rw [if_neg h]
  have y1 : a.d1 / (2 ^ a.l1 + 1 : ℕ) ≠ 0 := by positivity
  have y2 : a.d2 / (2 ^ a.l2 + 1 : ℕ) ≠ 0 := by positivity
  have y3 : a.d3 / (2 ^ a.l3 + 1 : ℕ) ≠ 0 := by positivity
  unfold genInit
  rw [hs]
  simp only
  rw [cd _ _ y1, cd _ _ y2, cd _ _ y3]
  simp only
  have c1 : 0 ≤ ⌈3 * T * L / (a.d1 / (2 ^ a.l1 + 1 : ℕ))⌉ := Int.ceil_nonneg (by positivity)
  have c2 : 0 ≤ ⌈L / (a.d2 / (2 ^ a.l2 + 1 : ℕ))⌉ := Int.ceil_nonneg (by positivity)
  have c3 : 0 ≤ ⌈L / (a.d3 / (2 ^ a.l3 + 1 : ℕ))⌉ := Int.ceil_nonneg (by positivity)
  have hb := blendExt_nonneg a.bn
  have n1 : (0 : ℤ) < ((2 ^ a.l1 + 1 : ℕ) : ℤ) := by positivity
  have n2 : (0 : ℤ) < ((2 ^ a.l2 + 1 : ℕ) : ℤ) := by positivity
  have n3 : (0 : ℤ) < ((2 ^ a.l3 + 1 : ℕ) : ℤ) := by positivity
  rw [if_neg (by omega)]
  have hg : ∀ x y z : ℕ, ∃ rf, grfInit 3 (.array [a.l1, a.l2, a.l3]) (some (.array [x, y, z])) [a.d1, a.d2, a.d3] .vfFftw
      = .ok rf := fun x y z => ⟨_, rfl⟩
  obtain ⟨rf, hg⟩ := hg (((2 ^ a.l1 + 1 : ℕ) : ℤ) + (2 * ⌈3 * T * L / (a.d1 / (2 ^ a.l1 + 1 : ℕ))⌉ + blendExt a.bn)).toNat
    (((2 ^ a.l2 + 1 : ℕ) : ℤ) + 2 * ⌈L / (a.d2 / (2 ^ a.l2 + 1 : ℕ))⌉).toNat
    (((2 ^ a.l3 + 1 : ℕ) : ℤ) + 2 * ⌈L / (a.d3 / (2 ^ a.l3 + 1 : ℕ))⌉).toNat
  rw [hg]
  simp only
  rw [hlow]
  exact ⟨_, rfl⟩

/-- The constructor accepts every von Karman or Mann box with non-negative scales and positive dimensions. -/
theorem genInit_exists (env : GenEnv) {a : GenArgs} (hm : a.model = "VK" ∨ a.model = "Mann") {L T e : ℝ}
    (hL : a.length = some L) (hT : a.time = some T) (he : a.energy = some e) (hz : a.zref ≠ 0)
    (hd : 0 < a.d1 ∧ 0 < a.d2 ∧ 0 < a.d3) (h0 : 0 ≤ L ∧ 0 ≤ T) (hlow : a.low = none) :
    ∃ g, genInit env a = (.ok g, env.globPos) := by
  have hs : ∃ k, genScales env a = .ok (k, L, T) := by
    unfold genScales
    have m1 : a.model ∈ ["DRD", "VK", "Mann"] := by rcases hm with h | h <;> simp [h]
    have m2 : a.model ≠ "DRD" := by rcases hm with h | h <;> rw [h] <;> decide
    rw [if_neg (not_not.2 m1), if_neg m2, hL, hT, he]
    unfold heightPower
    simp only
    rw [if_neg hz]
    exact ⟨_, rfl⟩
  obtain ⟨k, hs⟩ := hs
  exact genInit_of_scales hs hd h0 hlow

/-- A constructor call meeting the hypotheses of the theorems below. -/
def exampleArgs : GenArgs := ⟨1.7, 180, 500, 300, 200, 6, 5, 4, "VK", some 50, some 3, some 0.5, none, some 7, 10, none⟩

example (env : GenEnv) : exampleArgs.PosScales ∧ ∃ g, genInit env exampleArgs = (.ok g, env.globPos) := by
  constructor
  · refine ⟨⟨by norm_num [exampleArgs], by norm_num [exampleArgs], by norm_num [exampleArgs]⟩, fun h => ?_, fun _ => ?_⟩
    · exact absurd h (by decide)
    · exact ⟨50, 3, rfl, rfl, by norm_num, by norm_num⟩
  · exact genInit_exists env (Or.inl rfl) (L := 50) (T := 3) (e := 0.5) rfl rfl rfl (by norm_num [exampleArgs])
      ⟨by norm_num [exampleArgs], by norm_num [exampleArgs], by norm_num [exampleArgs]⟩ ⟨by norm_num, by norm_num⟩ rfl

/-! ### C50 -/

theorem pySlice_subset {α : Type} (l : List α) (a b : Option ℤ) : ∀ x ∈ pySlice l a b, x ∈ l := by
  intro x hx
  unfold pySlice at hx
  exact List.mem_of_mem_take (List.mem_of_mem_drop hx)

theorem pySlice_zero_zero {α : Type} (l : List α) : pySlice l (some 0) (some 0) = [] := by
  unfold pySlice
  simp only [sliceIdx_nonneg (le_refl (0 : ℤ))]
  simp

/-- An array without entries. -/
def Arr.Empty (x : Arr ℝ) : Prop := ∀ p ∈ x.planes, ∀ r ∈ p, r = []

theorem Arr.Empty.not_any {x : Arr ℝ} (h : x.Empty) : ¬ x.any := by
  rintro ⟨v, hv, -⟩
  unfold Arr.flat at hv
  simp only [List.mem_flatMap] at hv
  obtain ⟨p, hp, r, hr, w, hw, -⟩ := hv
  rw [h p hp r hr] at hw
  cases hw

theorem slice_empty (x : Arr ℝ) {nb my mz : ℤ} (h : nb = 0 ∨ my = 0 ∨ mz = 0) :
    (x.slice (some nb, some (-nb)) (some my, some (-my)) (some 0, some (-2 * mz))).Empty := by
  intro p hp r hr
  unfold Arr.slice at hp
  simp only [List.mem_map] at hp
  obtain ⟨p', hp', rfl⟩ := hp
  simp only [List.mem_map] at hr
  obtain ⟨r', hr', rfl⟩ := hr
  rcases h with rfl | rfl | rfl
  · rw [neg_zero, pySlice_zero_zero] at hp'; cases hp'
  · rw [neg_zero, pySlice_zero_zero] at hr'; cases hr'
  · rw [mul_zero, pySlice_zero_zero]

/-- Parameters that no call changes. -/
def Gen.Same (g g' : Gen) : Prop :=
  g'.nb = g.nb ∧ g'.my = g.my ∧ g'.mz = g.mz ∧ g'.bn = g.bn ∧ g'.low = g.low ∧ g'.gauss = g.gauss ∧
    (∃ l, g'.total.planes = g.total.planes ++ l) ∧ g'.d1 = g.d1 ∧ g'.d2 = g.d2 ∧
    (g'.d3, g'.l1, g'.l2, g'.l3) = (g.d3, g.l1, g.l2, g.l3)

theorem Gen.Same.refl (g : Gen) : g.Same g := ⟨rfl, rfl, rfl, rfl, rfl, rfl, ⟨[], by simp⟩, rfl, rfl, rfl⟩

theorem Gen.Same.trans {g g' g'' : Gen} (h : g.Same g') (h' : g'.Same g'') : g.Same g'' := by
  obtain ⟨a1, a2, a3, a4, a5, a6, ⟨l, a7⟩, a8, a9, a10⟩ := h
  obtain ⟨b1, b2, b3, b4, b5, b6, ⟨m, b7⟩, b8, b9, b10⟩ := h'
  exact ⟨b1.trans a1, b2.trans a2, b3.trans a3, b4.trans a4, b5.trans a5, b6.trans a6,
    ⟨l ++ m, by rw [b7, a7, List.append_assoc]⟩, b8.trans a8, b9.trans a9, b10.trans a10⟩

theorem generateBlock_facts (g : Gen) :
    ((g.generateBlock).2.total = g.total ∧ g.Same (g.generateBlock).2) ∧
    ((g.nb = 0 ∨ g.my = 0 ∨ g.mz = 0) → (g.generateBlock).1 = .error .valueError ∨
      ∃ b, (g.generateBlock).1 = .ok b ∧ ¬ b.any) := by
  have hn : ((g.nextNoise).2.total = g.total ∧ g.Same (g.nextNoise).2) ∧ ∀ e, (g.nextNoise).1 = .error e → e = .valueError := by
    unfold Gen.nextNoise
    cases hnoise : g.noise with
    | none => exact ⟨⟨rfl, rfl, rfl, rfl, rfl, rfl, rfl, ⟨[], by simp [Gen.sampleNoise]⟩, rfl, rfl, rfl⟩, fun e h => by simp at h⟩
    | some old =>
      simp only
      split_ifs with hc
      · refine ⟨⟨rfl, rfl, rfl, rfl, rfl, rfl, rfl, ⟨[], by simp [Gen.sampleNoise]⟩, rfl, rfl, rfl⟩, fun e h => ?_⟩
        exact (Except.error.inj h).symm
      · exact ⟨⟨rfl, rfl, rfl, rfl, rfl, rfl, rfl, ⟨[], by simp [Gen.sampleNoise]⟩, rfl, rfl, rfl⟩, fun e h => by simp at h⟩
  unfold Gen.generateBlock
  rcases hx : g.nextNoise with ⟨r, g'⟩
  rw [hx] at hn
  simp only at hn
  obtain ⟨⟨h1, h2⟩, h3⟩ := hn
  cases r with
  | error e =>
    simp only
    refine ⟨⟨h1, h2⟩, fun _ => Or.inl ?_⟩
    rw [h3 e rfl]
  | ok noise =>
    simp only
    refine ⟨⟨h1, h2⟩, fun h => Or.inr ?_⟩
    have hz : g'.nb = 0 ∨ g'.my = 0 ∨ g'.mz = 0 := by
      obtain ⟨a1, a2, a3, -⟩ := h2
      rw [a1, a2, a3]; exact h
    refine ⟨_, rfl, ?_⟩
    have he := slice_empty ({ g' with noise := some noise }.sample noise) hz
    split_ifs
    · refine Arr.Empty.not_any ?_
      intro p hp
      refine he p (pySlice_subset _ none (some (-(g'.bn - 1))) p ?_)
      exact hp
    · exact he.not_any

theorem blockStep_facts (p : ProfileArgs) (i : ℕ) (g : Gen) :
    g.Same (g.blockStep p i).2 ∧ ((g.nb = 0 ∨ g.my = 0 ∨ g.mz = 0) → (g.blockStep p i).1 = .error .valueError) := by
  obtain ⟨⟨h1, h2⟩, h3⟩ := generateBlock_facts g
  unfold Gen.blockStep
  rcases hx : g.generateBlock with ⟨r, g'⟩
  rw [hx] at h1 h2 h3
  simp only at h1 h2 h3
  cases r with
  | error e =>
    refine ⟨h2, fun h => ?_⟩
    rcases h3 h with h | ⟨b, h, -⟩
    · exact congrArg Except.error (Except.error.inj h)
    · cases h
  | ok b =>
    simp only
    constructor
    · cases hn : g'.normalizeBlock b p with
      | error e => exact h2
      | ok b2 =>
        simp only
        cases ha : g'.addLow i b2 with
        | error e => exact h2
        | ok b3 =>
          simp only
          by_cases hc : g'.total.n2 ≠ b3.n2 ∨ g'.total.n3 ≠ b3.n3
          · rw [if_pos hc]; exact h2
          · rw [if_neg hc]
            exact h2.trans ⟨rfl, rfl, rfl, rfl, rfl, rfl, ⟨_, rfl⟩, rfl, rfl, rfl⟩
    · intro h
      rcases h3 h with h | ⟨b', h, hany⟩
      · cases h
      · obtain rfl := Except.ok.inj h
        have : g'.normalizeBlock b p = .error .valueError := by
          unfold Gen.normalizeBlock; rw [if_pos hany]
        rw [this]

theorem loop_same (p : ProfileArgs) (n : ℕ) : ∀ (i : ℕ) (g : Gen), g.Same (Gen.loop p n i g).2 := by
  induction n with
  | zero => intro i g; exact Gen.Same.refl g
  | succ n ih =>
    intro i g
    have := (blockStep_facts p i g).1
    unfold Gen.loop
    rcases hx : g.blockStep p i with ⟨r, g'⟩
    rw [hx] at this
    cases r with
    | error e => exact this
    | ok u => exact this.trans (ih (i + 1) g')

theorem generate_same (p : ProfileArgs) (n : ℕ) (g : Gen) : g.Same (g.generate p n).2 := by
  have := loop_same p n 0 g
  unfold Gen.generate
  rcases hx : Gen.loop p n 0 g with ⟨r, g'⟩
  rw [hx] at this
  cases r <;> exact this

theorem run_same (cs : List (ℕ × ProfileArgs)) : ∀ g : Gen, g.Same (g.run cs).2 := by
  induction cs with
  | nil => intro g; exact Gen.Same.refl g
  | cons c cs ih =>
    intro g
    unfold Gen.run
    exact (generate_same c.2 c.1 g).trans (ih _)

/-- **C50.**  With a vanishing length or time scale the constructor succeeds, but then every call asking for at least one
block raises `ValueError`, whatever was called before. -/
theorem C50_zero_scale (env : GenEnv) {a : GenArgs} {L T e : ℝ} (hm : a.model = "VK" ∨ a.model = "Mann")
    (hL : a.length = some L) (hT : a.time = some T) (he : a.energy = some e) (hz : a.zref ≠ 0)
    (hd : 0 < a.d1 ∧ 0 < a.d2 ∧ 0 < a.d3) (h0 : 0 ≤ L ∧ 0 ≤ T) (hzero : L = 0 ∨ T = 0) :
    (a.low = none → ∃ g, genInit env a = (.ok g, env.globPos)) ∧
    ∀ g q, genInit env a = (.ok g, q) → ∀ (cs : List (ℕ × ProfileArgs)) (p : ProfileArgs) (n : ℕ),
      ((g.run cs).2.generate p (n + 1)).1 = .error .valueError := by
  refine ⟨fun hl => genInit_exists env hm hL hT he hz hd h0 hl, ?_⟩
  intro g q h cs p n
  obtain ⟨kernel, L', T', hs, -, -, -, -, -, ⟨-, e1, -, -⟩, -⟩ := genInit_ok h
  have hLT : L' = L ∧ T' = T := by
    unfold genScales at hs
    have m1 : a.model ∈ ["DRD", "VK", "Mann"] := by rcases hm with h | h <;> simp [h]
    have m2 : a.model ≠ "DRD" := by rcases hm with h | h <;> rw [h] <;> decide
    rw [if_neg (not_not.2 m1), if_neg m2, hL, hT, he] at hs
    unfold heightPower at hs
    simp only at hs
    rw [if_neg hz] at hs
    simp only [Except.ok.injEq, Prod.mk.injEq] at hs
    exact ⟨hs.2.1.symm, hs.2.2.symm⟩
  obtain ⟨rfl, rfl⟩ := hLT
  have hnb : g.nb = 0 := by
    rw [e1]
    rcases hzero with h | h <;> simp [h]
  obtain ⟨s1, -⟩ := run_same cs g
  have hb := (blockStep_facts p 0 (g.run cs).2).2 (Or.inl (s1.trans hnb))
  unfold Gen.generate Gen.loop
  rcases hx : (g.run cs).2.blockStep p 0 with ⟨r, g'⟩
  rw [hx] at hb
  simp only at hb
  rw [hb]

/-! ### C51 -/

/-- **C51.**  There is one infinite sequence of noise planes, filled in order by the random stream, such that whenever the
buffer exists it is the window of that sequence starting at a multiple of `Nx`, and one more block moves the window by
exactly `Nx` planes. -/
theorem C51_stream {env : GenEnv} {a : GenArgs} {g : Gen} {q : ℕ} (ha : a.PosScales) (h : genInit env a = (.ok g, q))
    (cs : List (ℕ × ProfileArgs)) :
    ∃ j, (g.run cs).2.noise = (if j = 0 then none else some (g.window (j - 1))) ∧
      (g.run cs).2.generateBlock.2.noise = some (g.window j) ∧
      (g.run cs).2.generateBlock.1 = .ok (g.block j) ∧
      ((∀ r ∈ (g.run cs).1, ∃ f, r = .ok f) → j = (cs.map Prod.fst).sum) := by
  obtain ⟨kernel, L, T, hs, hf, hl, -, ⟨l1, l2, l3⟩, -⟩ := genInit_ok h
  have hg := genInit_good ha h
  obtain ⟨j', k', tot', e, s, b1, b2, b3, b4⟩ := run_st hg hl cs 0 0 ⟨g.Ny, g.Nz, []⟩
    ⟨rfl, rfl, by simp, fun p hp => by cases hp⟩
  rw [hf.st] at e b4
  refine ⟨j', ?_, ?_, ?_, fun hr => by have := (b4 hr).2; omega⟩
  · rw [e]
    cases j' with
    | zero => rfl
    | succ j => rfl
  · rw [e, Gen.generateBlock_st hg]; rfl
  · rw [e, Gen.generateBlock_st hg]

/-- **C51.**  Two consecutive windows share all but `Nx` planes. -/
theorem C51_overlap {g : Gen} (h : g.Good) (j : ℕ) :
    (g.window j).planes.drop g.Nx = (g.window (j + 1)).planes.take (g.shape1.toNat - g.Nx) ∧
      (g.window j).planes.length = g.shape1.toNat ∧ g.Nx + 2 ≤ g.shape1.toNat := by
  obtain ⟨e1, -, -, p1, -⟩ := h.shapes
  have hb := blendExt_nonneg g.bn
  have hnb := h.1
  refine ⟨?_, tab_length _ _, by omega⟩
  unfold Gen.window
  simp only
  rw [tab_drop, tab_take, min_eq_left (by omega)]
  refine tab_congr fun i _ => ?_
  congr 1; ring

/-- **C51.**  Plane `r` of block `j` is the plane number `nb + r` of the field sampled from window `j`, that is, it sits at
plane `j * Nx + nb + r` of the sequence; these positions enumerate all planes from `nb` on, each exactly once. -/
theorem C51_tiling (g : Gen) (m : ℕ) (hm : g.nb.toNat ≤ m) :
    ∃! jr : ℕ × ℕ, jr.2 < g.Nx ∧ jr.1 * g.Nx + g.nb.toNat + jr.2 = m := by
  have hN : 0 < g.Nx := by unfold Gen.Nx; positivity
  refine ⟨((m - g.nb.toNat) / g.Nx, (m - g.nb.toNat) % g.Nx), ⟨Nat.mod_lt _ hN, ?_⟩, ?_⟩
  · have := Nat.div_add_mod' (m - g.nb.toNat) g.Nx
    simp only
    omega
  · rintro ⟨j, r⟩ ⟨hr, he⟩
    simp only at hr he
    have e : m - g.nb.toNat = r + j * g.Nx := by omega
    rw [e, Nat.add_mul_div_right _ _ hN, Nat.div_eq_of_lt hr, Nat.add_mul_mod_self_right, Nat.mod_eq_of_lt hr]
    simp

/-- **C51.**  Planes of block `j`. -/
theorem C51_block {g : Gen} (h : g.Good) (j : ℕ) :
    (g.block j).Shape g.Nx g.Ny g.Nz ∧ ∀ a < g.Nx, ∀ b < g.Ny, ∀ c < g.Nz, ∀ i,
      (g.block j).entry a b c i = (g.sample (g.window j)).entry (g.nb.toNat + a) (g.my.toNat + b) c i ∧
      g.nb.toNat + a < (g.sample (g.window j)).planes.length := by
  refine ⟨ofFn_shape _ _ _ _, ?_⟩
  intro a ha b hb c hc i
  obtain ⟨u, hu⟩ := Gen.sample_ofFn h (g.window j)
  obtain ⟨e1, -⟩ := h.shapes
  have hx := blendExt_nonneg g.bn
  have hnb := h.1
  refine ⟨?_, ?_⟩
  · unfold Gen.block
    rw [ofFn_entry _ ha hb hc]
  · rw [hu, (ofFn_shape _ _ _ _).2.2.1]
    omega

/-! ### C52 -/

/-- **C52.**  Whatever the object and the arguments, and whether or not the call raises, the planes generated earlier are
kept unchanged at the start of the field. -/
theorem C52_append_only (g : Gen) (cs : List (ℕ × ProfileArgs)) (p : ProfileArgs) (n : ℕ) :
    ∃ l, ((g.run cs).2.generate p n).2.total.planes = (g.run cs).2.total.planes ++ l :=
  (generate_same p n (g.run cs).2).2.2.2.2.2.2.1

theorem blockStep_index {g : Gen} (hl : g.low = none) (p : ProfileArgs) (i i' : ℕ) : g.blockStep p i = g.blockStep p i' := by
  have h2 := (generateBlock_facts g).1.2.2.2.2.2.1
  unfold Gen.blockStep
  rcases hx : g.generateBlock with ⟨r, g'⟩
  rw [hx] at h2
  simp only at h2
  rw [hl] at h2
  cases r with
  | error e => rfl
  | ok b =>
    simp only
    cases hn : g'.normalizeBlock b p with
    | error e => rfl
    | ok b2 => simp only [addLow_none h2]

theorem loop_index (p : ProfileArgs) (n : ℕ) : ∀ (i i' : ℕ) (g : Gen), g.low = none → Gen.loop p n i g = Gen.loop p n i' g := by
  induction n with
  | zero => intro i i' g _; rfl
  | succ n ih =>
    intro i i' g hl
    unfold Gen.loop
    rw [blockStep_index hl p i i']
    have h2 := (blockStep_facts p i' g).1.2.2.2.2.1
    rcases hx : g.blockStep p i' with ⟨r, g'⟩
    rw [hx] at h2
    cases r with
    | error e => rfl
    | ok u => exact ih (i + 1) (i' + 1) g' (h2.trans hl)

theorem loop_add (p : ProfileArgs) (m n : ℕ) : ∀ (i : ℕ) (g : Gen), Gen.loop p (m + n) i g =
    match Gen.loop p m i g with
    | (.error e, g) => (.error e, g)
    | (.ok _, g) => Gen.loop p n (i + m) g := by
  induction m with
  | zero => intro i g; rw [Nat.zero_add]; rfl
  | succ m ih =>
    intro i g
    have hs : ∀ k, Gen.loop p (k + 1) i g = match g.blockStep p i with
        | (.error e, g) => (.error e, g)
        | (.ok _, g) => Gen.loop p k (i + 1) g := fun k => rfl
    rw [show m + 1 + n = (m + n) + 1 by ring, hs, hs]
    rcases hx : g.blockStep p i with ⟨r, g'⟩
    cases r with
    | error e => rfl
    | ok u =>
      simp only
      rw [ih (i + 1) g', show i + 1 + m = i + (m + 1) by ring]

/-- **C52.**  Without a low-frequency model, asking for `m + n` blocks is the same as asking for `m` and then for `n`:
same result, same object afterwards; and if the first of the two calls raises, so does the single call, leaving the same
object. -/
theorem C52_split {g : Gen} (hl : g.low = none) (p : ProfileArgs) (m n : ℕ) :
    ((∃ f, (g.generate p m).1 = .ok f) → g.generate p (m + n) = (g.generate p m).2.generate p n) ∧
    ((∀ f, (g.generate p m).1 ≠ .ok f) → g.generate p (m + n) = g.generate p m) := by
  have h2 := (loop_same p m 0 g).2.2.2.2.1
  unfold Gen.generate
  rw [loop_add p m n 0 g]
  rcases hx : Gen.loop p m 0 g with ⟨r, g'⟩
  rw [hx] at h2
  simp only at h2
  cases r with
  | error e =>
    simp only
    refine ⟨fun ⟨f, hf⟩ => by simp at hf, fun _ => trivial⟩
  | ok u =>
    simp only
    rw [loop_index p n (0 + m) 0 g' (h2.trans hl)]
    exact ⟨fun _ => rfl, fun h => (h g'.total rfl).elim⟩

/-! ### C53 -/

/-- **C53.**  A call with invalid profile arguments raises `ValueError` and leaves the field as it was, but the noise buffer
has moved on by one block and the random stream by as many values as a block needs. -/
theorem C53_rejected {env : GenEnv} {a : GenArgs} {g : Gen} {q : ℕ} (ha : a.PosScales) (h : genInit env a = (.ok g, q))
    (cs : List (ℕ × ProfileArgs)) {p : ProfileArgs} (hp : ¬ p.Valid) (n : ℕ) :
    ((g.run cs).2.generate p (n + 1)).1 = .error .valueError ∧
    ((g.run cs).2.generate p (n + 1)).2.total = (g.run cs).2.total ∧
    ∃ j, (g.run cs).2.noise = (if j = 0 then none else some (g.window (j - 1))) ∧
      ((g.run cs).2.generate p (n + 1)).2.noise = some (g.window j) ∧
      ((g.run cs).2.generate p (n + 1)).2.pos = (g.run cs).2.pos +
        (if j = 0 then g.shape1.toNat else g.Nx) * g.shape2.toNat * g.shape3.toNat * 3 ∧
      (g.run cs).2.pos < ((g.run cs).2.generate p (n + 1)).2.pos := by
  obtain ⟨kernel, L, T, hs, hf, hl, -, ⟨l1, l2, l3⟩, -⟩ := genInit_ok h
  have hg := genInit_good ha h
  obtain ⟨j', k', tot', e, s, b1, b2, b3, b4⟩ := run_st hg hl cs 0 0 ⟨g.Ny, g.Nz, []⟩
    ⟨rfl, rfl, by simp, fun p hp => by cases hp⟩
  rw [hf.st] at e
  rw [e]
  obtain ⟨-, -, -, p1, p2, p3, n1, -⟩ := hg.shapes
  rcases generate_st hg hl p (n + 1) j' ⟨s.1, s.2.1⟩ with ⟨h1, -⟩ | ⟨k, hk, h1, -, h2⟩
  · exact absurd (h1 0 (by omega)).2 hp
  · have hk0 : k = 0 := by
      by_contra hne
      exact hp (h1 0 (by omega)).2
    subst hk0
    rw [h2]
    have hpos : (g.st (j' + 0 + 1) (g.ext tot' (g.outs p 0 j' 0))).pos = (g.st j' tot').pos +
        (if j' = 0 then g.shape1.toNat else g.Nx) * g.shape2.toNat * g.shape3.toNat * 3 := by
      cases j' with
      | zero => simp [Gen.st]
      | succ j =>
        rw [if_neg (by omega)]
        change (g.shape1.toNat + (j + 1) * g.Nx) * g.shape2.toNat * g.shape3.toNat * 3 =
          (g.shape1.toNat + j * g.Nx) * g.shape2.toNat * g.shape3.toNat * 3 + _
        ring
    refine ⟨rfl, ?_, j', ?_, rfl, hpos, ?_⟩
    · rw [outs_zero, ext_nil g ⟨s.1, s.2.1⟩]; rfl
    · cases j' <;> rfl
    · simp only
      rw [hpos]
      have : 0 < (if j' = 0 then g.shape1.toNat else g.Nx) := by split_ifs <;> assumption
      have := Nat.mul_pos (Nat.mul_pos (Nat.mul_pos this p2) p3) (by norm_num : 0 < 3)
      omega

/-! ### C54 -/

/-- **C54.**  A block of the right height is accepted exactly when it has a non-zero entry, the profile is `LOG`, or `PL` with
an exponent, and all three reference values are positive; otherwise `ValueError`. -/
theorem C54_accepts (g : Gen) (b : Arr ℝ) (hb : b.n3 = g.Nz) (p : ProfileArgs) :
    ((∃ r, g.normalizeBlock b p = .ok r) ↔
      (∃ v ∈ b.flat, v ≠ 0) ∧ (p.ptype = "LOG" ∨ (p.ptype = "PL" ∧ ∃ x, p.plexp = some x)) ∧
        0 < p.zref ∧ 0 < p.uref ∧ 0 < p.z0) ∧
    ((∀ r, g.normalizeBlock b p ≠ .ok r) → g.normalizeBlock b p = .error .valueError) := by
  change ((∃ r, g.normalizeBlock b p = .ok r) ↔ b.any ∧ _) ∧ _
  unfold Gen.normalizeBlock
  by_cases h1 : b.any
  swap
  · rw [if_pos h1]; simp [h1]
  rw [if_neg (not_not.2 h1)]
  by_cases h2 : p.ptype ∈ ["LOG", "PL"]
  swap
  · rw [if_pos h2]
    have h2' : p.ptype ≠ "LOG" ∧ p.ptype ≠ "PL" := by simpa using h2
    simp [h2'.1, h2'.2]
  rw [if_neg (not_not.2 h2)]
  by_cases h3 : p.zref ≤ 0 ∨ p.uref ≤ 0 ∨ p.z0 ≤ 0
  · rw [if_pos h3]
    refine ⟨⟨fun ⟨r, h⟩ => by simp at h, ?_⟩, fun _ => rfl⟩
    rintro ⟨-, -, q1, q2, q3⟩
    rcases h3 with h | h | h <;> linarith
  rw [if_neg h3]
  simp only [not_or, not_le] at h3
  by_cases h4 : p.ptype = "PL" ∧ p.plexp = none
  · rw [if_pos h4]
    refine ⟨⟨fun ⟨r, h⟩ => by simp at h, ?_⟩, fun _ => rfl⟩
    rintro ⟨-, h | ⟨-, x, hx⟩, -⟩
    · rw [h4.1] at h; exact absurd h (by decide)
    · rw [h4.2] at hx; cases hx
  rw [if_neg h4]
  simp only
  rw [if_neg (not_not.2 hb)]
  refine ⟨⟨fun _ => ⟨h1, ?_, h3⟩, fun _ => ⟨_, rfl⟩⟩, fun h => absurd rfl (h _)⟩
  simp only [List.mem_cons, List.not_mem_nil, or_false] at h2
  rcases h2 with h | h
  · exact Or.inl h
  · refine Or.inr ⟨h, ?_⟩
    cases hp : p.plexp with
    | none => exact absurd ⟨h, hp⟩ h4
    | some x => exact ⟨x, rfl⟩

/-! ### C55 -/

theorem sd_mean_square {n1 n2 n3 : ℕ} (f : ℕ → ℕ → ℕ → Fin 3 → ℝ) (hc : (Arr.ofFn n1 n2 n3 f).any) :
    0 < (Arr.ofFn n1 n2 n3 f).sd ∧
    (∑ a ∈ Finset.range n1, ∑ b ∈ Finset.range n2, ∑ c ∈ Finset.range n3, ∑ i, (f a b c i / (Arr.ofFn n1 n2 n3 f).sd) ^ 2) /
        (n1 * n2 * n3 * 3 : ℕ) = 1 := by
  obtain ⟨a0, ha0, b0, hb0, c0, hc0, i0, hne⟩ := (any_ofFn f).1 hc
  set S := ∑ a ∈ Finset.range n1, ∑ b ∈ Finset.range n2, ∑ c ∈ Finset.range n3, ∑ i, (f a b c i) ^ 2 with hS
  have hSpos : 0 < S := by
    refine Finset.sum_pos' (fun a _ => by positivity) ⟨a0, Finset.mem_range.2 ha0, ?_⟩
    refine Finset.sum_pos' (fun b _ => by positivity) ⟨b0, Finset.mem_range.2 hb0, ?_⟩
    refine Finset.sum_pos' (fun c _ => by positivity) ⟨c0, Finset.mem_range.2 hc0, ?_⟩
    exact Finset.sum_pos' (fun i _ => by positivity) ⟨i0, Finset.mem_univ _, by positivity⟩
  have hN : (0 : ℝ) < (n1 * n2 * n3 * 3 : ℕ) := by
    have : 0 < n1 * n2 * n3 * 3 :=
      Nat.mul_pos (Nat.mul_pos (Nat.mul_pos (by omega) (by omega)) (by omega)) (by norm_num)
    exact_mod_cast this
  have hsd : (Arr.ofFn n1 n2 n3 f).sd = Real.sqrt (S / (n1 * n2 * n3 * 3 : ℕ)) := by
    unfold Arr.sd
    rw [flat_length, flat_sum f fun x => x ^ 2]
  refine ⟨by rw [hsd]; exact Real.sqrt_pos.2 (div_pos hSpos hN), ?_⟩
  simp only [div_pow, ← Finset.sum_div]
  rw [← hS, hsd, Real.sq_sqrt (div_pos hSpos hN).le]
  field_simp

/-- **C55.**  The normalised block is a positive multiple of the given one, with mean square exactly one over all points and
components, plus the mean profile in the first component only. -/
theorem C55_unit_mean_square (g : Gen) (n1 n2 : ℕ) (f : ℕ → ℕ → ℕ → Fin 3 → ℝ) (p : ProfileArgs) {r : Arr Fl}
    (h : g.normalizeBlock (Arr.ofFn n1 n2 g.Nz f) p = .ok r) :
    ∃ s > 0, r = Arr.ofFn n1 n2 g.Nz (fun a b c i => fin (s * f a b c i) + if i = 0 then
        (if p.ptype = "LOG" then logLaw (c * (g.d3 / 2 ^ g.l3)) p.z0 p.zref p.uref
          else powerLaw (c * (g.d3 / 2 ^ g.l3)) p.zref p.uref (p.plexp.getD 0)) else fin 0) ∧
      (∑ a ∈ Finset.range n1, ∑ b ∈ Finset.range n2, ∑ c ∈ Finset.range g.Nz, ∑ i, (s * f a b c i) ^ 2) /
        (n1 * n2 * g.Nz * 3 : ℕ) = 1 := by
  rw [normalizeBlock_ofFn] at h
  by_cases hc : (Arr.ofFn n1 n2 g.Nz f).any ∧ p.Valid
  swap
  · rw [if_neg hc] at h; cases h
  rw [if_pos hc] at h
  obtain rfl := Except.ok.inj h
  obtain ⟨hsd0, hms⟩ := sd_mean_square f hc.1
  refine ⟨1 / (Arr.ofFn n1 n2 g.Nz f).sd, by positivity, ?_, ?_⟩
  · refine ofFn_congr fun a _ b _ c _ => ?_
    funext i
    have hz : ((g.Nz - 1 : ℕ) : ℝ) = 2 ^ g.l3 := by unfold Gen.Nz; simp
    unfold Gen.profileAt
    rw [hz, div_eq_inv_mul, one_div]
  · simp only [one_div_mul_eq_div]
    exact hms

/-! ### Reading the accumulated field -/

/-- `x[a, b, c]` with bounds checking. -/
def Arr.val? (x : Arr Fl) (a b c : ℕ) : Option (Fin 3 → Fl) :=
  ((x.planes[a]?).bind fun p => p[b]?).bind fun r => r[c]?

theorem outs_getElem? (g : Gen) (p : ProfileArgs) (i j k t a : ℕ) (ht : t < k) (ha : a < g.Nx) :
    (g.outs p i j k)[t * g.Nx + a]? = some (tab g.Ny fun b => tab g.Nz fun c => g.outAt p (i + t) (j + t) a b c) := by
  induction k generalizing i j t with
  | zero => omega
  | succ k ih =>
    obtain ⟨-, -, h1, -⟩ := ofFn_shape g.Nx g.Ny g.Nz (g.outAt p i j)
    rw [outs_succ, List.getElem?_append, h1]
    cases t with
    | zero =>
      rw [if_pos (by omega)]
      unfold Arr.ofFn
      simp only
      rw [tab_getElem?, if_pos (by omega)]
      simp
    | succ t =>
      have e : (t + 1) * g.Nx + a - g.Nx = t * g.Nx + a := by rw [add_mul, one_mul]; omega
      rw [if_neg (by rw [add_mul, one_mul]; omega), e, ih (i + 1) (j + 1) t (by omega),
        show i + 1 + t = i + (t + 1) by ring, show j + 1 + t = j + (t + 1) by ring]

theorem ext_val? (g : Gen) (tot : Arr Fl) (p : ProfileArgs) (i j k t a b c : ℕ) (ht : t < k) (ha : a < g.Nx) (hb : b < g.Ny)
    (hc : c < g.Nz) :
    (g.ext tot (g.outs p i j k)).val? (tot.planes.length + (t * g.Nx + a)) b c = some (g.outAt p (i + t) (j + t) a b c) := by
  unfold Arr.val? Gen.ext
  simp only
  rw [List.getElem?_append_right (by omega), Nat.add_sub_cancel_left, outs_getElem? g p i j k t a ht ha, Option.bind_some,
    tab_getElem?, if_pos hb, Option.bind_some, tab_getElem?, if_pos hc]

end
end Verif
