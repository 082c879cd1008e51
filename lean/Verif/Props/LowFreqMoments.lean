import Verif.Props.GeneratorLaw
import Verif.Props.GeneratorLow
import Verif.Props.LowFreqGenerated

/-!
# Mean and second moments of the generated field with a low-frequency part: C127
-/

namespace Verif
open Fl

noncomputable section
open Classical MeasureTheory ProbabilityTheory Filter Topology

/-! ### Specification -/

/-- The pair of arrays the low-frequency generator returns for a given state of the global stream. -/
def Spec.lowField (lf : LowFreq) (γ : ℕ → ℝ) (pos : ℕ) : Mat × Mat :=
  match (lf.generate γ pos).1 with
  | .ok u => u
  | .error _ => ([], [])

/-- What the low-frequency field contributes to component `k` at a point of the horizontal plane: the interpolated value. -/
def Spec.lowPart (lf : LowFreq) (u : Mat × Mat) (k : Fin 3) (x y : ℝ) : ℝ :=
  match k with
  | 0 => interpAt (lfCoords lf.userL1 lf.userN1) (lfCoords lf.userL2 lf.userN2) u.1 x y
  | 1 => interpAt (lfCoords lf.userL1 lf.userN1) (lfCoords lf.userL2 lf.userN2) u.2 x y
  | 2 => 0

/-- The point of the low-frequency domain that belongs to plane `r`, column `b` of the `i`-th block of a call. -/
def Spec.lowPoint (a : GenArgs) (lf : LowFreq) (i r b : ℕ) : ℝ × ℝ :=
  (i * a.d1 + r * (a.d1 / (2 ^ a.l1 + 1)), (lf.userL2 - a.d2) / 2 + b * (a.d2 / (2 ^ a.l2 + 1)))

/-- The wind component a user reads at a point after building a generator and making the calls `cs` and then one of `n`
blocks, with `ξ` the generator's own stream and `γ` numpy's global one. -/
def Spec.wind (env : GenEnv) (a : GenArgs) (ξ γ : ℕ → ℝ) (cs : List (ℕ × ProfileArgs)) (p : ProfileArgs) (n : ℕ) (x y z : ℕ)
    (k : Fin 3) : ℝ :=
  match genInit { env.withStream ξ with glob := γ } a with
  | (.ok g, _) => Spec.readOut ((g.run cs).2.generate p n).1 x y z k
  | (.error _, _) => 0

/-! ### Building the generator -/

theorem genInit_noglob {env : GenEnv} {a : GenArgs} (hnone : a.low = none) (γ : ℕ → ℝ) :
    genInit { env with glob := γ } a = genInit env a := by
  unfold genInit
  rw [show genScales { env with glob := γ } a = genScales env a from rfl]
  simp only [hnone]

theorem genInit_low {env : GenEnv} {a : GenArgs} {g : Gen} {q : ℕ} (hnone : a.low = none) (h : genInit env a = (.ok g, q))
    {cfg : LFConfig} (hp : cfg.Pos) {lf : LowFreq} (hlf : lfInit cfg = .ok lf) :
    ∃ f q', genInit env { a with low := some cfg } =
      (.ok { g with low := some { lf with full := f, u := some (Spec.lowField lf env.glob env.globPos) } }, q') := by
  obtain ⟨u1, u2, f1, f2, lf', hgen, hlf', -⟩ := generate_spec hp hlf env.glob env.globPos
  have hu : Spec.lowField lf env.glob env.globPos = (u1, u2) := by
    unfold Spec.lowField
    rw [hgen]
  refine ⟨some (f1, f2), env.globPos + lf.compN1 * lf.compN2, ?_⟩
  rw [hu, ← hlf']
  have e : genScales env { a with low := some cfg } = genScales env a := rfl
  unfold genInit at h ⊢
  rw [e]
  cases hs : genScales env a with
  | error e => rw [hs] at h; simp at h
  | ok r =>
    obtain ⟨K, L, T⟩ := r
    rw [hs] at h
    simp only at h ⊢
    split at h <;> try (simp at h; done)
    split at h
    · simp at h
    rename_i hsh
    rw [if_neg hsh]
    split at h
    · simp at h
    simp only [hnone] at h
    simp only [hlf, hgen]
    simp only [Prod.mk.injEq, Except.ok.injEq] at h ⊢
    exact ⟨by rw [← h.1], trivial⟩

section
variable {Ω : Type} [MeasurableSpace Ω] {μ : Measure Ω} [IsProbabilityMeasure μ] {ξ : ℕ → Ω → ℝ} {ν : Measure ℝ} {g : Gen}

/-- With probability one over the generator's own stream and for every state of the global stream the calls succeed, and every
value of the last call is the normalised fluctuation plus mean wind plus low-frequency part. -/
theorem low_returned (h : Spec.Stream μ ξ ν) (hat : ∀ x, ν {x} = 0) {env : GenEnv} {a : GenArgs} (hp : a.PosScales)
    (he : a.PosEnergy) (hlow : a.low = none) {q : ℕ} (hinit : genInit env a = (.ok g, q)) (hK : g.kernel.Valid)
    {cfg : LFConfig} (hc : cfg.Pos) {lf : LowFreq} (hlf : lfInit cfg = .ok lf) :
    ∀ᵐ ω ∂μ, ∀ γ : ℕ → ℝ, ∃ g' q', genInit { env.withStream (fun n => ξ n ω) with glob := γ } { a with low := some cfg } = (.ok g', q') ∧
      ∀ cs : List (ℕ × ProfileArgs), (∀ c ∈ cs, c.2.Valid) → ∀ (p : ProfileArgs) (n : ℕ), p.Valid →
        ∃ f, ((g'.run cs).2.generate p n).1 = .ok f ∧ f.planes.length = ((cs.map Prod.fst).sum + n) * g.Nx ∧
          ∀ i < n, ∀ (r : Fin g.Nx) (b : Fin g.Ny) (c : Fin g.Nz), ∃ w,
            f.val? (((cs.map Prod.fst).sum + i) * g.Nx + r) b c = some w ∧
            ∀ k, w k = fin (g.fluct (fun n => ξ n ω) ((cs.map Prod.fst).sum + i) (r, b, c, k)) +
              (if k = 0 then Spec.meanWind p (c * (a.d3 / 2 ^ a.l3)) else fin 0) +
              fin (Spec.lowPart lf (Spec.lowField lf γ env.globPos) k (Spec.lowPoint a lf i r b).1 (Spec.lowPoint a lf i r b).2) := by
  have hg := genInit_good hp hinit
  obtain ⟨K, L, T, hs, hf, hl, ⟨d1, d2, d3⟩, ⟨l1, l2, l3⟩, -, -, hk, -, -, -, hnone, -⟩ := genInit_ok hinit
  have hE : g.kernel.Energetic := by rw [hk]; exact genScales_energetic he hs
  have hatom : ∀ n x, μ {ω | ξ n ω = x} = 0 := by
    intro n x
    have := hat x
    rw [← h.2.2 n, Measure.map_apply (h.1 n) (measurableSet_singleton x)] at this
    exact this
  filter_upwards [blocks_any h.1 h.2.1 hatom hg (genInit_regular hp.1 hinit) hK hE] with ω hω γ
  have hi1 : genInit { env.withStream (fun n => ξ n ω) with glob := γ } a = (.ok (g.withStream fun n => ξ n ω), q) := by
    rw [genInit_noglob hlow]
    exact genInit_stream hinit _
  obtain ⟨fu, q', hi2⟩ := genInit_low hlow hi1 hc hlf
  refine ⟨_, q', hi2, fun cs hv p n hpv => ?_⟩
  have hpos : ({ env.withStream (fun n => ξ n ω) with glob := γ } : GenEnv).globPos = env.globPos := rfl
  have hglob : ({ env.withStream (fun n => ξ n ω) with glob := γ } : GenEnv).glob = γ := rfl
  rw [hpos, hglob]
  obtain ⟨u, hu⟩ : ∃ u, u = Spec.lowField lf γ env.globPos := ⟨_, rfl⟩
  rw [← hu]
  obtain ⟨g', hg'⟩ : ∃ g' : Gen, g' = { (g.withStream fun n => ξ n ω) with low := some { lf with full := fu, u := some u } } :=
    ⟨_, rfl⟩
  rw [← hg']
  have hgood : g'.Good := by rw [hg']; exact hg
  have hready : g'.LowReady := by
    rw [hg']
    intro lf0 h0
    obtain rfl := Option.some.inj h0
    exact ⟨u, rfl⟩
  have hfresh : g'.Fresh := by rw [hg']; exact hf
  have hany : ∀ j, (g'.block j).any := by rw [hg']; exact hω
  have eNx : g'.Nx = g.Nx := by rw [hg']; rfl
  have eNy : g'.Ny = g.Ny := by rw [hg']; rfl
  have eNz : g'.Nz = g.Nz := by rw [hg']; rfl
  have hok := run_ok (g := g') hgood hready hany cs hv 0 ⟨g'.Ny, g'.Nz, []⟩ ⟨rfl, rfl⟩
  obtain ⟨j, k, tot, e, sh, -, -, -, hall⟩ := run_st hgood hready cs 0 0 ⟨g'.Ny, g'.Nz, []⟩
    ⟨rfl, rfl, by simp, fun p hp => by cases hp⟩
  obtain ⟨hk', hj'⟩ := hall hok
  rw [zero_add] at hk' hj'
  rw [show g'.st 0 ⟨g'.Ny, g'.Nz, []⟩ = g' from hfresh.st] at e
  rw [e]
  rcases generate_st hgood hready p n j ⟨sh.1, sh.2.1⟩ with ⟨-, h2⟩ | ⟨m, -, -, h3, -⟩
  swap
  · exact absurd ⟨hany _, hpv⟩ h3
  rw [h2]
  refine ⟨_, rfl, ?_, ?_⟩
  · have := (outs_shape g' p 0 j n).1
    simp only [Gen.ext, List.length_append, this, sh.2.2.1, hk', eNx]
    ring
  · intro i hi r b c
    refine ⟨g'.outAt p (0 + i) (j + i) r b c, ?_, ?_⟩
    · have := ext_val? g' tot p 0 j n i r b c hi (by rw [eNx]; exact r.isLt) (by rw [eNy]; exact b.isLt) (by rw [eNz]; exact c.isLt)
      rw [sh.2.2.1, hk', eNx] at this
      rw [← this]
      congr 1
      ring
    · have hz : ((g.Nz - 1 : ℕ) : ℝ) = 2 ^ g.l3 := by unfold Gen.Nz; simp
      have hN1 : (g.Nx : ℝ) = 2 ^ a.l1 + 1 := by unfold Gen.Nx; rw [l1]; push_cast; rfl
      have hN2 : (g.Ny : ℝ) = 2 ^ a.l2 + 1 := by unfold Gen.Ny; rw [l2]; push_cast; rfl
      have hx : ((i : ℝ) + (r : ℝ) / g.Nx) * g.d1 = (Spec.lowPoint a lf i r b).1 := by
        unfold Spec.lowPoint
        rw [hN1, d1]
        have : (2 : ℝ) ^ a.l1 + 1 ≠ 0 := by positivity
        field_simp
      have hy : lf.userL2 / 2 - g.d2 / 2 + (b : ℝ) * (g.d2 / g.Ny) = (Spec.lowPoint a lf i r b).2 := by
        unfold Spec.lowPoint
        rw [hN2, d2]
        ring
      have hprof : g'.profileAt p c = Spec.meanWind p (c * (a.d3 / 2 ^ a.l3)) := by
        rw [hg']
        unfold Gen.profileAt Spec.meanWind
        change (if p.ptype = "LOG" then logLaw ((c : ℝ) * (g.d3 / (g.Nz - 1 : ℕ))) p.z0 p.zref p.uref
          else powerLaw ((c : ℝ) * (g.d3 / (g.Nz - 1 : ℕ))) p.zref p.uref (p.plexp.getD 0)) = _
        rw [hz, d3, l3]
      have hlowAt : g'.lowAt i r b = (Spec.lowPart lf u 0 (Spec.lowPoint a lf i r b).1 (Spec.lowPoint a lf i r b).2,
          Spec.lowPart lf u 1 (Spec.lowPoint a lf i r b).1 (Spec.lowPoint a lf i r b).2) := by
        rw [← hx, ← hy, hg']
        rfl
      have hsome : g'.low ≠ none := by rw [hg']; simp
      have hent : ∀ k, (g'.block (j + i)).entry r b c k / (g'.block (j + i)).sd =
          g.fluct (fun n => ξ n ω) ((cs.map Prod.fst).sum + i) (r, b, c, k) := by
        intro k
        rw [hj', hg']
        rfl
      intro k
      rw [zero_add]
      fin_cases k
      · change fin _ + _ + (if g'.low = none then fin 0 else fin (g'.lowAt i r b).1) = _
        rw [if_neg hsome, hlowAt, hprof, hent]
        rfl
      · change fin _ + (if g'.low = none then fin 0 else fin (g'.lowAt i r b).2) = _
        rw [if_neg hsome, hlowAt, hent]
        simp [add_fin_zero]
      · change fin _ = _
        rw [hent]
        simp [Spec.lowPart, add_fin_zero]

end

/-! ### The low-frequency part as a function of the global stream -/

theorem axis_locate {L : ℝ} {N : ℕ} (hL : 0 < L) (hN : 2 ≤ N) {z : ℝ} (hz : 0 ≤ z) (hz' : z ≤ ((N - 1 : ℕ) : ℝ) * (L / N)) :
    ∃ (a : ℕ) (s : ℝ), a + 1 < N ∧ 0 ≤ s ∧ s ≤ 1 ∧ z = ((a : ℝ) + s) * (L / N) := by
  have hd : 0 < L / N := div_pos hL (by exact_mod_cast (by omega : 0 < N))
  have hq : 0 ≤ z / (L / N) := by positivity
  have hf := Nat.floor_le hq
  have hf' := Nat.lt_floor_add_one (z / (L / N))
  have hup : z / (L / N) ≤ ((N - 1 : ℕ) : ℝ) := by rwa [div_le_iff₀ hd]
  by_cases h : ⌊z / (L / N)⌋₊ + 1 < N
  · exact ⟨_, z / (L / N) - ⌊z / (L / N)⌋₊, h, by linarith, by linarith, by field_simp; ring⟩
  · have hge : N - 1 ≤ ⌊z / (L / N)⌋₊ := by omega
    have : ((N - 1 : ℕ) : ℝ) ≤ ⌊z / (L / N)⌋₊ := by exact_mod_cast hge
    have he : z / (L / N) = ((N - 1 : ℕ) : ℝ) := le_antisymm hup (by linarith)
    refine ⟨N - 2, 1, by omega, zero_le_one, le_refl _, ?_⟩
    rw [div_eq_iff hd.ne'] at he
    rw [he]
    congr 1
    have : N - 1 = N - 2 + 1 := by omega
    rw [this]; push_cast; ring

/-- Interpolation is a sub-convex combination of entries whose weights do not depend on the array. -/
theorem interp_weights {L1 L2 : ℝ} {N1 N2 : ℕ} (hL1 : 0 < L1) (hL2 : 0 < L2) (hN1 : 2 ≤ N1) (hN2 : 2 ≤ N2) (x y : ℝ) :
    ∃ W : Fin N1 × Fin N2 → ℝ, (∀ v, 0 ≤ W v) ∧ ∑ v, W v ≤ 1 ∧
      ∀ m : Mat, interpAt (lfCoords L1 N1) (lfCoords L2 N2) m x y = ∑ v, W v * m.entry v.1 v.2 := by
  by_cases hout : x < 0 ∨ ((N1 - 1 : ℕ) : ℝ) * (L1 / N1) < x ∨ y < 0 ∨ ((N2 - 1 : ℕ) : ℝ) * (L2 / N2) < y
  · refine ⟨fun _ => 0, fun _ => le_refl _, by simp, fun m => ?_⟩
    unfold interpAt
    rw [lfCoords_head (by omega), lfCoords_head (by omega), lfCoords_last (by omega), lfCoords_last (by omega), if_pos hout]
    simp
  · push Not at hout
    obtain ⟨x0, x1, y0, y1⟩ := hout
    obtain ⟨i, s, hi', s0, s1, rfl⟩ := axis_locate hL1 hN1 x0 x1
    obtain ⟨j, t, hj', t0, t1, rfl⟩ := axis_locate hL2 hN2 y0 y1
    let A : Fin N1 → ℝ := fun v => (if v = ⟨i, by omega⟩ then 1 - s else 0) + if v = ⟨i + 1, hi'⟩ then s else 0
    let B : Fin N2 → ℝ := fun v => (if v = ⟨j, by omega⟩ then 1 - t else 0) + if v = ⟨j + 1, hj'⟩ then t else 0
    have sumA : ∀ f : Fin N1 → ℝ, ∑ v, A v * f v = (1 - s) * f ⟨i, by omega⟩ + s * f ⟨i + 1, hi'⟩ := by
      intro f
      simp only [A, add_mul, ite_mul, zero_mul, Finset.sum_add_distrib, Finset.sum_ite_eq', Finset.mem_univ, if_true]
    have sumB : ∀ f : Fin N2 → ℝ, ∑ v, B v * f v = (1 - t) * f ⟨j, by omega⟩ + t * f ⟨j + 1, hj'⟩ := by
      intro f
      simp only [B, add_mul, ite_mul, zero_mul, Finset.sum_add_distrib, Finset.sum_ite_eq', Finset.mem_univ, if_true]
    have hA : ∀ v, 0 ≤ A v := fun v => by
      simp only [A]
      have : 0 ≤ 1 - s := by linarith
      split_ifs <;> linarith
    have hB : ∀ v, 0 ≤ B v := fun v => by
      simp only [B]
      have : 0 ≤ 1 - t := by linarith
      split_ifs <;> linarith
    have hsum : ∀ f : Fin N1 → Fin N2 → ℝ, ∑ v : Fin N1 × Fin N2, A v.1 * B v.2 * f v.1 v.2 = ∑ v, A v * ∑ w, B w * f v w := by
      intro f
      rw [Fintype.sum_prod_type]
      refine Finset.sum_congr rfl fun v _ => ?_
      rw [Finset.mul_sum]
      exact Finset.sum_congr rfl fun w _ => by ring
    refine ⟨fun v => A v.1 * B v.2, fun v => mul_nonneg (hA _) (hB _), ?_, fun m => ?_⟩
    · have := hsum fun _ _ => 1
      simp only [mul_one] at this
      rw [this]
      have b1 := sumB fun _ => 1
      have a1 := sumA fun _ => 1
      simp only [mul_one] at a1 b1
      rw [b1]
      simp only [sub_add_cancel, mul_one]
      rw [a1]
      linarith
    · rw [C72_bilinear hL1 hL2 m hi' hj' s0 s1 t0 t1, hsum fun v w => m.entry v w, sumA]
      simp only [sumB]
      ring

section
variable {Ω : Type} [MeasurableSpace Ω] {μ : Measure Ω}

/-- The entries of the returned arrays, whatever the state of the stream. -/
theorem lowField_entry {cfg : LFConfig} (hp : cfg.Pos) {lf : LowFreq} (h : lfInit cfg = .ok lf) [NeZero lf.compN1]
    [NeZero lf.compN2] (γ : ℕ → ℝ) (pos : ℕ) (c : Fin 2) {i j : ℕ} (hi : i < lf.userN1) (hj : j < lf.userN2) :
    (Spec.pick c (Spec.lowField lf γ pos)).entry i j = lfFull lf (lfNoise γ pos : Box lf.compN1 lf.compN2 1 → ℝ) c
          (((lf.compN1 - lf.userN1) / 2 + i : ℕ), ((lf.compN2 - lf.userN2) / 2 + j : ℕ), 0) := by
  obtain ⟨u1, u2, f1, f2, lf', hgen, -⟩ := generate_spec hp h γ pos
  have hu : Spec.lowField lf γ pos = (u1, u2) := by
    unfold Spec.lowField
    rw [hgen]
  rw [hu]
  exact pick_entry hp h hgen c hi hj

/-- Facts about the grid used below. -/
theorem lf_facts {cfg : LFConfig} (hp : cfg.Pos) (h1 : 1 ≤ cfg.exp1) (h2 : 1 ≤ cfg.exp2) {lf : LowFreq} (h : lfInit cfg = .ok lf) :
    0 < lf.userL1 ∧ 0 < lf.userL2 ∧ 2 ≤ lf.userN1 ∧ 2 ≤ lf.userN2 ∧ 0 < lf.compN1 ∧ 0 < lf.compN2 := by
  obtain ⟨c, hc⟩ := lfInit_computeC h
  obtain ⟨lf0, h0, ecfg, ec, -, -, l1, l2, N1, N2, -⟩ := lfInit_ok hp hc
  rw [h] at h0
  obtain rfl := Except.ok.inj h0
  obtain ⟨⟨-, c1, -, c2⟩, -⟩ := C67_grid hp h
  refine ⟨by rw [l1]; exact mul_pos hp.2.1 hp.1, by rw [l2]; exact mul_pos hp.2.2 hp.1, ?_, ?_, by omega, by omega⟩
  · rw [N1]; exact (Nat.pow_le_pow_right (by norm_num) h1 : 2 ^ 1 ≤ 2 ^ cfg.exp1)
  · rw [N2]; exact (Nat.pow_le_pow_right (by norm_num) h2 : 2 ^ 1 ≤ 2 ^ cfg.exp2)

/-- A finite combination of values of the stream. -/
def StreamLinear (F : (ℕ → ℝ) → ℝ) : Prop := ∃ (s : Finset ℕ) (c : ℕ → ℝ), ∀ γ, F γ = ∑ m ∈ s, c m * γ m

theorem StreamLinear.zero : StreamLinear fun _ => 0 := ⟨∅, fun _ => 0, fun _ => by simp⟩

theorem StreamLinear.value (m : ℕ) : StreamLinear fun γ => γ m := ⟨{m}, fun _ => 1, fun _ => by simp⟩

theorem StreamLinear.add {F G : (ℕ → ℝ) → ℝ} (hF : StreamLinear F) (hG : StreamLinear G) : StreamLinear fun γ => F γ + G γ := by
  obtain ⟨s, c, h⟩ := hF
  obtain ⟨t, d, k⟩ := hG
  refine ⟨s ∪ t, fun m => (if m ∈ s then c m else 0) + if m ∈ t then d m else 0, fun γ => ?_⟩
  show F γ + G γ = _
  rw [h, k]
  simp only [add_mul, ite_mul, zero_mul, Finset.sum_add_distrib, Finset.sum_ite_mem]
  congr 1
  · rw [Finset.union_inter_cancel_left]
  · rw [Finset.union_inter_cancel_right]

theorem StreamLinear.mul {F : (ℕ → ℝ) → ℝ} (hF : StreamLinear F) (r : ℝ) : StreamLinear fun γ => r * F γ := by
  obtain ⟨s, c, h⟩ := hF
  refine ⟨s, fun m => r * c m, fun γ => ?_⟩
  show r * F γ = _
  rw [h, Finset.mul_sum]
  exact Finset.sum_congr rfl fun m _ => by ring

theorem StreamLinear.sum {ι : Type*} (t : Finset ι) {F : ι → (ℕ → ℝ) → ℝ} (h : ∀ i ∈ t, StreamLinear (F i)) :
    StreamLinear fun γ => ∑ i ∈ t, F i γ := by
  induction t using Finset.induction_on with
  | empty => simpa using StreamLinear.zero
  | insert a t ha ih =>
    simp only [Finset.sum_insert ha]
    exact (h a (Finset.mem_insert_self _ _)).add (ih fun i hi => h i (Finset.mem_insert_of_mem hi))

theorem StreamLinear.measurable {F : (ℕ → ℝ) → ℝ} (hF : StreamLinear F) : Measurable F := by
  obtain ⟨s, c, h⟩ := hF
  rw [show F = fun γ => ∑ m ∈ s, c m * γ m from funext h]
  exact Finset.measurable_sum _ fun m _ => (measurable_pi_apply m).const_mul _

theorem StreamLinear.memLp {F : (ℕ → ℝ) → ℝ} (hF : StreamLinear F) {γ : ℕ → Ω → ℝ} (hγ : ∀ m, MemLp (γ m) 2 μ) :
    MemLp (fun ω => F fun m => γ m ω) 2 μ := by
  obtain ⟨s, c, h⟩ := hF
  simp only [h]
  exact memLp_finsetSum _ fun m _ => (hγ m).const_mul _

theorem StreamLinear.mean [IsProbabilityMeasure μ] {F : (ℕ → ℝ) → ℝ} (hF : StreamLinear F) {γ : ℕ → Ω → ℝ}
    (hγ : ∀ m, MemLp (γ m) 2 μ) (h0 : ∀ m, ∫ ω, γ m ω ∂μ = 0) : ∫ ω, F (fun m => γ m ω) ∂μ = 0 := by
  obtain ⟨s, c, h⟩ := hF
  simp only [h]
  rw [integral_finsetSum _ fun m _ => ((hγ m).integrable one_le_two).const_mul _]
  refine Finset.sum_eq_zero fun m _ => ?_
  rw [integral_const_mul, h0, mul_zero]

/-- The low-frequency part is a finite combination of values of the global stream. -/
theorem lowPart_linear {cfg : LFConfig} (hp : cfg.Pos) (h1 : 1 ≤ cfg.exp1) (h2 : 1 ≤ cfg.exp2) {lf : LowFreq}
    (h : lfInit cfg = .ok lf) (pos : ℕ) (k : Fin 3) (x y : ℝ) :
    StreamLinear fun γ => Spec.lowPart lf (Spec.lowField lf γ pos) k x y := by
  obtain ⟨L1, L2, N1, N2, c1, c2⟩ := lf_facts hp h1 h2 h
  haveI : NeZero lf.compN1 := ⟨c1.ne'⟩
  haveI : NeZero lf.compN2 := ⟨c2.ne'⟩
  obtain ⟨W, -, -, hW⟩ := interp_weights L1 L2 N1 N2 x y
  have hfull : ∀ (c : Fin 2) (z : Box lf.compN1 lf.compN2 1), StreamLinear fun γ => lfFull lf (lfNoise γ pos) c z := by
    intro c z
    simp only [lfFull_imp]
    exact StreamLinear.sum _ fun v _ => (StreamLinear.value _).mul _
  have hent : ∀ c : Fin 2, StreamLinear fun γ =>
      ∑ v : Fin lf.userN1 × Fin lf.userN2, W v * (Spec.pick c (Spec.lowField lf γ pos)).entry v.1 v.2 := by
    intro c
    refine StreamLinear.sum _ fun v _ => StreamLinear.mul ?_ _
    simp only [lowField_entry hp h _ pos c v.1.isLt v.2.isLt]
    exact hfull _ _
  fin_cases k
  · simp only [Spec.lowPart, hW]; exact hent 0
  · simp only [Spec.lowPart, hW]; exact hent 1
  · exact StreamLinear.zero

end

/-! ### C127 -/

/-- The setting of C127: a generator described by arguments `a` without a low-frequency part can be built (as `g`), a
low-frequency model `cfg` can be built (as `lf`), the generator's own stream `ξ` consists of independent values of a symmetric
law without atoms, numpy's global stream `γ` of uncorrelated values of mean zero and variance one, the two are independent, and
the mean wind profile is finite everywhere. -/
structure Spec.LowSetting {Ω : Type} [MeasurableSpace Ω] (μ : Measure Ω) (ξ : ℕ → Ω → ℝ) (ν : Measure ℝ) (γ : ℕ → Ω → ℝ)
    (env : GenEnv) (a : GenArgs) (g : Gen) (cfg : LFConfig) (lf : LowFreq) (p : ProfileArgs) : Prop where
  stream : Spec.Stream μ ξ ν
  atomless : ∀ x, ν {x} = 0
  symmetric : ν.map (fun x => -x) = ν
  square : ∀ m, MemLp (γ m) 2 μ
  centred : ∀ m, ∫ ω, γ m ω ∂μ = 0
  white : ∀ m n, ∫ ω, γ m ω * γ n ω ∂μ = if m = n then 1 else 0
  indep : IndepFun (fun ω n => ξ n ω) (fun ω n => γ n ω) μ
  scales : a.PosScales
  energy : a.PosEnergy
  nolow : a.low = none
  init : ∃ q, genInit env a = (.ok g, q)
  kernel : g.kernel.Valid
  pos : cfg.Pos
  exp1 : 1 ≤ cfg.exp1
  exp2 : 1 ≤ cfg.exp2
  low : lfInit cfg = .ok lf
  profile : p.Valid
  log : p.ptype = "LOG" → p.z0 ≠ p.zref
  power : ∀ e, p.plexp = some e → 0 ≤ e

/-- Mean of component `k` at height index `c`. -/
def Spec.meanPart (a : GenArgs) (p : ProfileArgs) (c : ℕ) (k : Fin 3) : ℝ :=
  if k = 0 then (Spec.meanWind p (c * (a.d3 / 2 ^ a.l3))).toReal else 0

/-- A point of the field that a call appends: the calls `cs` before it, its number of blocks, and block, plane, column, height
and component of the point. -/
structure Spec.Spot (g : Gen) where
  cs : List (ℕ × ProfileArgs)
  valid : ∀ c ∈ cs, c.2.Valid
  n : ℕ
  i : ℕ
  lt : i < n
  r : Fin g.Nx
  b : Fin g.Ny
  c : Fin g.Nz
  k : Fin 3

/-- Number of the block in the field returned so far. -/
def Spec.Spot.block {g : Gen} (s : Spec.Spot g) : ℕ := (s.cs.map Prod.fst).sum + s.i

/-- The wind at that point. -/
def Spec.Spot.wind {g : Gen} (s : Spec.Spot g) (env : GenEnv) (a : GenArgs) (p : ProfileArgs) (ξ γ : ℕ → ℝ) : ℝ :=
  Spec.wind env a ξ γ s.cs p s.n (s.block * g.Nx + s.r) s.b s.c s.k

/-- The low-frequency part at that point: it depends on the number of the block within its call. -/
def Spec.Spot.low {g : Gen} (s : Spec.Spot g) (env : GenEnv) (a : GenArgs) (lf : LowFreq) (γ : ℕ → ℝ) : ℝ :=
  Spec.lowPart lf (Spec.lowField lf γ env.globPos) s.k (Spec.lowPoint a lf s.i s.r s.b).1 (Spec.lowPoint a lf s.i s.r s.b).2

section
variable {Ω : Type} [MeasurableSpace Ω] {μ : Measure Ω} [IsProbabilityMeasure μ] {ξ : ℕ → Ω → ℝ} {ν : Measure ℝ}
  {γ : ℕ → Ω → ℝ} {env : GenEnv} {a : GenArgs} {g : Gen} {cfg : LFConfig} {lf : LowFreq} {p : ProfileArgs}

omit [IsProbabilityMeasure μ] in
theorem Spec.LowSetting.finite (S : Spec.LowSetting μ ξ ν γ env a g cfg lf p) (c : ℕ) :
    Spec.meanWind p (c * (a.d3 / 2 ^ a.l3)) = fin (Spec.meanPart a p c 0) := by
  have hz : (0 : ℝ) ≤ c * (a.d3 / 2 ^ a.l3) := by
    have := S.scales.1.2.2
    positivity
  have : ∃ v, Spec.meanWind p (c * (a.d3 / 2 ^ a.l3)) = fin v := by
    obtain ⟨hty, z1, -, z2⟩ := S.profile
    unfold Spec.meanWind
    by_cases ht : p.ptype = "LOG"
    · rw [if_pos ht]
      exact ⟨_, logLaw_fin hz z2 z1 (S.log ht).symm⟩
    · rw [if_neg ht]
      obtain ⟨-, e, hpe⟩ := hty.resolve_left ht
      rw [hpe]
      exact ⟨_, powerLaw_fin hz z1 (S.power e hpe)⟩
  obtain ⟨v, hv⟩ := this
  unfold Spec.meanPart
  rw [if_pos rfl, hv, toReal_fin]

/-- The wind at every point, with and without the low-frequency part. -/
theorem spot_value (S : Spec.LowSetting μ ξ ν γ env a g cfg lf p) : ∀ᵐ ω ∂μ, ∀ s : Spec.Spot g,
    s.wind env { a with low := some cfg } p (fun n => ξ n ω) (fun n => γ n ω) =
      g.fluct (fun n => ξ n ω) s.block (s.r, s.b, s.c, s.k) + Spec.meanPart a p s.c s.k + s.low env a lf (fun n => γ n ω) ∧
    s.wind env a p (fun n => ξ n ω) (fun n => γ n ω) =
      g.fluct (fun n => ξ n ω) s.block (s.r, s.b, s.c, s.k) + Spec.meanPart a p s.c s.k := by
  obtain ⟨q, hinit⟩ := S.init
  filter_upwards [low_returned S.stream S.atomless S.scales S.energy S.nolow hinit S.kernel S.pos S.low,
    fluct_returned S.stream S.atomless S.scales S.energy S.nolow hinit S.kernel] with ω hω hω0 s
  constructor
  · obtain ⟨g', q', hg', hcalls⟩ := hω fun n => γ n ω
    obtain ⟨f, hf, -, hval⟩ := hcalls s.cs s.valid p s.n S.profile
    obtain ⟨w, hw, hk⟩ := hval s.i s.lt s.r s.b s.c
    unfold Spec.Spot.wind Spec.wind
    rw [hg']
    simp only
    unfold Spec.readOut
    rw [hf]
    simp only
    unfold Spec.Spot.block
    rw [hw]
    simp only [Option.map_some, Option.getD_some]
    rw [hk, S.finite]
    unfold Spec.Spot.low Spec.meanPart
    by_cases h : s.k = 0 <;> simp [h]
  · obtain ⟨g', hg', hcalls⟩ := hω0
    obtain ⟨f, hf, -, hval⟩ := hcalls s.cs s.valid p s.n S.profile
    obtain ⟨w, hw, w0, w1, w2⟩ := hval s.i s.lt s.r s.b s.c
    unfold Spec.Spot.wind Spec.wind
    rw [genInit_noglob S.nolow, hg']
    simp only
    unfold Spec.readOut
    rw [hf]
    simp only
    unfold Spec.Spot.block
    rw [hw]
    simp only [Option.map_some, Option.getD_some]
    rw [S.finite] at w0
    obtain ⟨k, hk⟩ : ∃ k, s.k = k := ⟨_, rfl⟩
    rw [hk]
    fin_cases k
    · change (w 0).toReal = _
      rw [w0]; simp
    · change (w 1).toReal = _
      rw [w1]; simp [Spec.meanPart]
    · change (w 2).toReal = _
      rw [w2]; simp [Spec.meanPart]

theorem Spec.LowSetting.good (S : Spec.LowSetting μ ξ ν γ env a g cfg lf p) : g.Good := by
  obtain ⟨q, hinit⟩ := S.init
  exact genInit_good S.scales hinit

theorem fluct_memLp (S : Spec.LowSetting μ ξ ν γ env a g cfg lf p) (j : ℕ) (x : g.Cell) :
    MemLp (fun ω => g.fluct (fun n => ξ n ω) j x) 2 μ := by
  refine MemLp.of_bound (((measurable_pi_apply x).comp
    (fluct_measurable_stream S.good S.stream.1 j)).aestronglyMeasurable) (Real.sqrt (g.Nx * g.Ny * g.Nz * 3 : ℕ))
    (Eventually.of_forall fun ω => ?_)
  rw [Real.norm_eq_abs]
  exact fluct_abs_le g _ j x

theorem spot_low_linear (S : Spec.LowSetting μ ξ ν γ env a g cfg lf p) (s : Spec.Spot g) :
    StreamLinear fun γ => s.low env a lf γ := lowPart_linear S.pos S.exp1 S.exp2 S.low env.globPos s.k _ _

theorem fluct_low_indep (S : Spec.LowSetting μ ξ ν γ env a g cfg lf p) (j : ℕ) (x : g.Cell) (s : Spec.Spot g) :
    IndepFun (fun ω => g.fluct (fun n => ξ n ω) j x) (fun ω => s.low env a lf fun n => γ n ω) μ := by
  have h1 : Measurable fun δ : ℕ → ℝ => g.fluct δ j x :=
    (measurable_pi_apply x).comp ((measurable_pi_apply j).comp (fluct_seq_measurable S.good))
  exact S.indep.comp h1 (spot_low_linear S s).measurable

theorem cov_congr_ae {X X' Y Y' : Ω → ℝ} (hX : X =ᵐ[μ] X') (hY : Y =ᵐ[μ] Y') : cov[X, Y; μ] = cov[X', Y'; μ] := by
  unfold covariance
  rw [integral_congr_ae hX, integral_congr_ae hY]
  refine integral_congr_ae ?_
  filter_upwards [hX, hY] with ω h1 h2
  rw [h1, h2]

/-- **C127** (mean).  Attaching a low-frequency model leaves the expected wind at every point the mean wind profile. -/
theorem C127_mean (S : Spec.LowSetting μ ξ ν γ env a g cfg lf p) (s : Spec.Spot g) :
    ∫ ω, s.wind env { a with low := some cfg } p (fun n => ξ n ω) (fun n => γ n ω) ∂μ = Spec.meanPart a p s.c s.k := by
  rw [integral_congr_ae ((spot_value S).mono fun ω h => (h s).1)]
  have i1 := (fluct_memLp S s.block (s.r, s.b, s.c, s.k)).integrable one_le_two
  have i2 := ((spot_low_linear S s).memLp S.square).integrable one_le_two
  have i3 : Integrable (fun ω => g.fluct (fun n => ξ n ω) s.block (s.r, s.b, s.c, s.k) + Spec.meanPart a p s.c s.k) μ :=
    i1.add (integrable_const _)
  rw [integral_add i3 i2, integral_add i1 (integrable_const _),
    fluct_mean S.good S.stream S.symmetric, (spot_low_linear S s).mean S.square S.centred]
  simp

/-- **C127** (covariances).  The covariance of the wind at two points is the covariance without a low-frequency model plus the
covariance of the interpolated low-frequency field at the two points: the two parts of the field are uncorrelated. -/
theorem C127_covariance (S : Spec.LowSetting μ ξ ν γ env a g cfg lf p) (s t : Spec.Spot g) :
    cov[fun ω => s.wind env { a with low := some cfg } p (fun n => ξ n ω) (fun n => γ n ω),
        fun ω => t.wind env { a with low := some cfg } p (fun n => ξ n ω) (fun n => γ n ω); μ] =
      cov[fun ω => s.wind env a p (fun n => ξ n ω) (fun n => γ n ω),
        fun ω => t.wind env a p (fun n => ξ n ω) (fun n => γ n ω); μ] +
      ∫ ω, s.low env a lf (fun n => γ n ω) * t.low env a lf (fun n => γ n ω) ∂μ := by
  have hv := spot_value S
  have f1 := fluct_memLp S s.block (s.r, s.b, s.c, s.k)
  have f2 := fluct_memLp S t.block (t.r, t.b, t.c, t.k)
  have l1 := (spot_low_linear S s).memLp S.square
  have l2 := (spot_low_linear S t).memLp S.square
  have e1 := cov_congr_ae (hv.mono fun ω h => (h s).2) (hv.mono fun ω h => (h t).2)
  have e2 := cov_congr_ae (hv.mono fun ω h => (h s).1) (hv.mono fun ω h => (h t).1)
  rw [e1, e2, covariance_add_const_left (f1.integrable one_le_two), covariance_add_const_right (f2.integrable one_le_two)]
  have r1 : (fun ω => g.fluct (fun n => ξ n ω) s.block (s.r, s.b, s.c, s.k) + Spec.meanPart a p s.c s.k +
      s.low env a lf (fun n => γ n ω)) = fun ω => ((fun ω => g.fluct (fun n => ξ n ω) s.block (s.r, s.b, s.c, s.k)) +
        fun ω => s.low env a lf (fun n => γ n ω)) ω + Spec.meanPart a p s.c s.k := by
    funext ω; simp only [Pi.add_apply]; ring
  have r2 : (fun ω => g.fluct (fun n => ξ n ω) t.block (t.r, t.b, t.c, t.k) + Spec.meanPart a p t.c t.k +
      t.low env a lf (fun n => γ n ω)) = fun ω => ((fun ω => g.fluct (fun n => ξ n ω) t.block (t.r, t.b, t.c, t.k)) +
        fun ω => t.low env a lf (fun n => γ n ω)) ω + Spec.meanPart a p t.c t.k := by
    funext ω; simp only [Pi.add_apply]; ring
  rw [r1, r2, covariance_add_const_left ((f1.add l1).integrable one_le_two),
    covariance_add_const_right ((f2.add l2).integrable one_le_two), covariance_add_left f1 l1 (f2.add l2),
    covariance_add_right f1 f2 l2, covariance_add_right l1 f2 l2,
    (fluct_low_indep S _ _ t).covariance_eq_zero f1 l2, covariance_comm (fun ω => s.low env a lf (fun n => γ n ω)),
    (fluct_low_indep S _ _ s).covariance_eq_zero f2 l1, covariance_eq_sub l1 l2]
  rw [(spot_low_linear S s).mean S.square S.centred]
  simp only [Pi.mul_apply]
  ring

/-- The mean square of an entry of the low-frequency field, the same for all entries. -/
def Spec.lowVariance (μ : Measure Ω) (lf : LowFreq) (γ : ℕ → Ω → ℝ) (pos : ℕ) (k : Fin 3) : ℝ :=
  match k with
  | 0 => ∫ ω, (Spec.lowField lf (fun n => γ n ω) pos).1.entry 0 0 ^ 2 ∂μ
  | 1 => ∫ ω, (Spec.lowField lf (fun n => γ n ω) pos).2.entry 0 0 ^ 2 ∂μ
  | 2 => 0

omit [IsProbabilityMeasure μ] in
theorem low_entry_sq (hp : cfg.Pos) (h : lfInit cfg = .ok lf) (hL2 : ∀ m, MemLp (γ m) 2 μ)
    (hcov : ∀ m n, ∫ ω, γ m ω * γ n ω ∂μ = if m = n then 1 else 0) (pos : ℕ) (c : Fin 2) {i j : ℕ} (hi : i < lf.userN1)
    (hj : j < lf.userN2) :
    ∫ ω, (Spec.pick c (Spec.lowField lf (fun n => γ n ω) pos)).entry i j ^ 2 ∂μ =
      ∫ ω, (Spec.pick c (Spec.lowField lf (fun n => γ n ω) pos)).entry 0 0 ^ 2 ∂μ := by
  have hu : ∀ ω, ∃ s, lf.generate (fun m => γ m ω) pos = (.ok (Spec.lowField lf (fun n => γ n ω) pos), s) := by
    intro ω
    obtain ⟨u1, u2, f1, f2, lf', hgen, -⟩ := generate_spec hp h (fun m => γ m ω) pos
    have hl : Spec.lowField lf (fun n => γ n ω) pos = (u1, u2) := by
      unfold Spec.lowField
      rw [hgen]
    rw [hl]
    exact ⟨_, hgen⟩
  have := C82_generated_stationary hp h γ hL2 hcov pos hu c c (i := 0) (j := 0) (i' := 0) (j' := 0) (s := i) (t := j)
    (by omega) (by omega) (by omega) (by omega)
  simp only [zero_add] at this
  simp only [sq]
  exact this

omit [IsProbabilityMeasure μ] in
/-- Interpolation does not increase the mean square. -/
theorem lowPart_sq_le (hp : cfg.Pos) (h1 : 1 ≤ cfg.exp1) (h2 : 1 ≤ cfg.exp2) (h : lfInit cfg = .ok lf)
    (hL2 : ∀ m, MemLp (γ m) 2 μ) (hcov : ∀ m n, ∫ ω, γ m ω * γ n ω ∂μ = if m = n then 1 else 0) (pos : ℕ) (k : Fin 3) (x y : ℝ) :
    ∫ ω, Spec.lowPart lf (Spec.lowField lf (fun n => γ n ω) pos) k x y ^ 2 ∂μ ≤ Spec.lowVariance μ lf γ pos k := by
  obtain ⟨L1, L2, N1, N2, c1, c2⟩ := lf_facts hp h1 h2 h
  haveI : NeZero lf.compN1 := ⟨c1.ne'⟩
  haveI : NeZero lf.compN2 := ⟨c2.ne'⟩
  obtain ⟨W, hW0, hW1, hW⟩ := interp_weights L1 L2 N1 N2 x y
  have key : ∀ c : Fin 2, ∫ ω, (∑ v : Fin lf.userN1 × Fin lf.userN2,
        W v * (Spec.pick c (Spec.lowField lf (fun n => γ n ω) pos)).entry v.1 v.2) ^ 2 ∂μ ≤
      ∫ ω, (Spec.pick c (Spec.lowField lf (fun n => γ n ω) pos)).entry 0 0 ^ 2 ∂μ := by
    intro c
    have hlin : ∀ v : Fin lf.userN1 × Fin lf.userN2, StreamLinear fun δ => (Spec.pick c (Spec.lowField lf δ pos)).entry v.1 v.2 := by
      intro v
      simp only [lowField_entry hp h _ pos c v.1.isLt v.2.isLt, lfFull_imp]
      exact StreamLinear.sum _ fun v _ => (StreamLinear.value _).mul _
    have hint : ∀ v : Fin lf.userN1 × Fin lf.userN2,
        Integrable (fun ω => (Spec.pick c (Spec.lowField lf (fun n => γ n ω) pos)).entry v.1 v.2 ^ 2) μ := fun v =>
      ((hlin v).memLp hL2).integrable_sq
    have hle : ∫ ω, (∑ v : Fin lf.userN1 × Fin lf.userN2,
        W v * (Spec.pick c (Spec.lowField lf (fun n => γ n ω) pos)).entry v.1 v.2) ^ 2 ∂μ ≤
        ∫ ω, ∑ v : Fin lf.userN1 × Fin lf.userN2, W v * (Spec.pick c (Spec.lowField lf (fun n => γ n ω) pos)).entry v.1 v.2 ^ 2 ∂μ := by
      refine integral_mono (((StreamLinear.sum _ fun v _ => (hlin v).mul (W v)).memLp hL2).integrable_sq)
        (integrable_finsetSum _ fun v _ => (hint v).const_mul _) fun ω => ?_
      obtain ⟨E, hE⟩ : ∃ E : Fin lf.userN1 × Fin lf.userN2 → ℝ,
        E = fun v => (Spec.pick c (Spec.lowField lf (fun n => γ n ω) pos)).entry v.1 v.2 := ⟨_, rfl⟩
      have hE' : ∀ v : Fin lf.userN1 × Fin lf.userN2, (Spec.pick c (Spec.lowField lf (fun n => γ n ω) pos)).entry v.1 v.2 = E v := fun v => by
        rw [hE]
      simp only [hE']
      have hS : 0 ≤ ∑ v, W v * E v ^ 2 := Finset.sum_nonneg fun v _ => mul_nonneg (hW0 v) (sq_nonneg _)
      calc (∑ v, W v * E v) ^ 2 ≤ (∑ v, W v) * ∑ v, W v * E v ^ 2 :=
            Finset.sum_sq_le_sum_mul_sum_of_sq_eq_mul _ (fun v _ => hW0 v) (fun v _ => mul_nonneg (hW0 v) (sq_nonneg _))
              fun v _ => by ring
        _ ≤ 1 * ∑ v, W v * E v ^ 2 := mul_le_mul_of_nonneg_right hW1 hS
        _ = _ := one_mul _
    refine hle.trans ?_
    rw [integral_finsetSum _ fun v _ => (hint v).const_mul _]
    simp only [integral_const_mul, low_entry_sq hp h hL2 hcov pos c (Fin.isLt _) (Fin.isLt _)]
    rw [← Finset.sum_mul]
    have : 0 ≤ ∫ ω, (Spec.pick c (Spec.lowField lf (fun n => γ n ω) pos)).entry 0 0 ^ 2 ∂μ := integral_nonneg fun ω => sq_nonneg _
    nlinarith
  fin_cases k
  · simp only [Spec.lowPart, hW]; exact key 0
  · simp only [Spec.lowPart, hW]; exact key 1
  · simp [Spec.lowPart, Spec.lowVariance]

theorem wind_memLp (S : Spec.LowSetting μ ξ ν γ env a g cfg lf p) (s : Spec.Spot g) :
    MemLp (fun ω => s.wind env { a with low := some cfg } p (fun n => ξ n ω) (fun n => γ n ω)) 2 μ ∧
    MemLp (fun ω => s.wind env a p (fun n => ξ n ω) (fun n => γ n ω)) 2 μ := by
  have f1 := fluct_memLp S s.block (s.r, s.b, s.c, s.k)
  have l1 := (spot_low_linear S s).memLp S.square
  have hv := spot_value S
  constructor
  · exact (memLp_congr_ae (hv.mono fun ω h => (h s).1)).2 ((f1.add (memLp_const _)).add l1)
  · exact (memLp_congr_ae (hv.mono fun ω h => (h s).2)).2 (f1.add (memLp_const _))

/-- **C127** (variances).  At every point the low-frequency model adds between nothing and the variance of an entry of the
low-frequency field to the variance of the wind: the whole of it where the point is a node of the low-frequency grid, nothing
beyond that grid and nothing in the vertical component. -/
theorem C127_variance (S : Spec.LowSetting μ ξ ν γ env a g cfg lf p) (s : Spec.Spot g) :
    let with_ := Var[fun ω => s.wind env { a with low := some cfg } p (fun n => ξ n ω) (fun n => γ n ω); μ]
    let without := Var[fun ω => s.wind env a p (fun n => ξ n ω) (fun n => γ n ω); μ]
    let σ2 := Spec.lowVariance μ lf γ env.globPos s.k
    let z := Spec.lowPoint a lf s.i s.r s.b
    without ≤ with_ ∧ with_ ≤ without + σ2 ∧
      (∀ I < lf.userN1, ∀ J < lf.userN2, z = (I * (lf.userL1 / lf.userN1), J * (lf.userL2 / lf.userN2)) → with_ = without + σ2) ∧
      ((z.1 < 0 ∨ lf.userL1 - lf.userL1 / lf.userN1 < z.1 ∨ z.2 < 0 ∨ lf.userL2 - lf.userL2 / lf.userN2 < z.2) → with_ = without) ∧
      (s.k = 2 → with_ = without) := by
  intro with_ without σ2 z
  obtain ⟨m1, m2⟩ := wind_memLp S s
  have hcv := C127_covariance S s s
  rw [covariance_self m1.1.aemeasurable, covariance_self m2.1.aemeasurable] at hcv
  simp only [← sq] at hcv
  have hsum : with_ = without + ∫ ω, s.low env a lf (fun n => γ n ω) ^ 2 ∂μ := hcv
  have h0 : 0 ≤ ∫ ω, s.low env a lf (fun n => γ n ω) ^ 2 ∂μ := integral_nonneg fun ω => sq_nonneg _
  have hle : ∫ ω, s.low env a lf (fun n => γ n ω) ^ 2 ∂μ ≤ σ2 :=
    lowPart_sq_le S.pos S.exp1 S.exp2 S.low S.square S.white env.globPos s.k _ _
  obtain ⟨L1, L2, N1, N2, c1, c2⟩ := lf_facts S.pos S.exp1 S.exp2 S.low
  refine ⟨by rw [hsum]; linarith, by rw [hsum]; linarith, fun I hI J hJ hz => ?_, fun hout => ?_, fun hk => ?_⟩
  · rw [hsum]
    congr 1
    have hz1 : (Spec.lowPoint a lf s.i s.r s.b).1 = I * (lf.userL1 / lf.userN1) := congrArg Prod.fst hz
    have hz2 : (Spec.lowPoint a lf s.i s.r s.b).2 = J * (lf.userL2 / lf.userN2) := congrArg Prod.snd hz
    have e0 := low_entry_sq S.pos S.low S.square S.white env.globPos 0 hI hJ
    have e1 := low_entry_sq S.pos S.low S.square S.white env.globPos 1 hI hJ
    unfold Spec.Spot.low
    rw [hz1, hz2]
    show _ = Spec.lowVariance μ lf γ env.globPos s.k
    obtain ⟨k, hk⟩ : ∃ k, s.k = k := ⟨_, rfl⟩
    rw [hk]
    fin_cases k
    · simp only [Spec.lowPart, C72_nodes L1 L2 N1 N2 _ hI hJ]; exact e0
    · simp only [Spec.lowPart, C72_nodes L1 L2 N1 N2 _ hI hJ]; exact e1
    · simp [Spec.lowPart, Spec.lowVariance]
  · rw [hsum]
    have : ∀ ω, s.low env a lf (fun n => γ n ω) = 0 := by
      intro ω
      unfold Spec.Spot.low
      obtain ⟨k, hk⟩ : ∃ k, s.k = k := ⟨_, rfl⟩
      rw [hk]
      fin_cases k
      · exact C72_outside (by omega) (by omega) _ hout
      · exact C72_outside (by omega) (by omega) _ hout
      · rfl
    simp [this]
  · rw [hsum]
    have : ∀ ω, s.low env a lf (fun n => γ n ω) = 0 := by
      intro ω
      unfold Spec.Spot.low
      rw [hk]
      rfl
    simp [this]

theorem fluct_average_zero (S : Spec.LowSetting μ ξ ν γ env a g cfg lf p) : ∀ᵐ ω ∂μ, ∀ x : g.Cell,
    Tendsto (fun n : ℕ => (∑ j ∈ Finset.range n, g.fluct (fun n => ξ n ω) j x) / n) atTop (𝓝 0) := by
  refine ae_all_iff.2 fun x => ?_
  have hint : Integrable (fun ω => g.fluct (fun n => ξ n ω) 0 x) μ := (fluct_memLp S 0 x).integrable one_le_two
  have := fluct_average S.good S.stream (F := fun v => v x) (measurable_pi_apply x) hint
  rwa [fluct_mean S.good S.stream S.symmetric] at this

/-- **C127** (one long call).  With probability one, the average over the blocks of a single call of the wind at a given point of
the block tends to the mean wind as the number of blocks grows: the low-frequency field covers finitely many blocks. -/
theorem C127_long (S : Spec.LowSetting μ ξ ν γ env a g cfg lf p) : ∀ᵐ ω ∂μ, ∀ r < g.Nx, ∀ b < g.Ny, ∀ c < g.Nz, ∀ k,
    Tendsto (fun n : ℕ => (∑ i ∈ Finset.range n, Spec.wind env { a with low := some cfg } (fun n => ξ n ω) (fun n => γ n ω) [] p n
      (i * g.Nx + r) b c k) / n) atTop (𝓝 (Spec.meanPart a p c k)) := by
  filter_upwards [spot_value S, fluct_average_zero S] with ω hω hav r hr b hb c hc k
  obtain ⟨L1, L2, N1, N2, c1, c2⟩ := lf_facts S.pos S.exp1 S.exp2 S.low
  obtain ⟨lo, hlo⟩ : ∃ lo : ℕ → ℝ, lo = fun i => Spec.lowPart lf (Spec.lowField lf (fun n => γ n ω) env.globPos) k
    (Spec.lowPoint a lf i r b).1 (Spec.lowPoint a lf i r b).2 := ⟨_, rfl⟩
  have hread : ∀ n : ℕ, ∀ i ∈ Finset.range n, Spec.wind env { a with low := some cfg } (fun n => ξ n ω) (fun n => γ n ω) [] p n
      (i * g.Nx + r) b c k = g.fluct (fun n => ξ n ω) i (⟨r, hr⟩, ⟨b, hb⟩, ⟨c, hc⟩, k) + Spec.meanPart a p c k + lo i := by
    intro n i hi
    have := (hω ⟨[], (fun c hc => by cases hc), n, i, Finset.mem_range.1 hi, ⟨r, hr⟩, ⟨b, hb⟩, ⟨c, hc⟩, k⟩).1
    simp only [Spec.Spot.wind, Spec.Spot.low, Spec.Spot.block, List.map_nil, List.sum_nil, zero_add] at this
    rw [this, hlo]
  have hd1 := S.scales.1.1
  have hlo0 : Tendsto lo atTop (𝓝 0) := by
    refine tendsto_const_nhds.congr' ?_
    obtain ⟨m, hm⟩ := exists_nat_gt (lf.userL1 / a.d1)
    filter_upwards [eventually_ge_atTop m] with i hi
    have hx : lf.userL1 - lf.userL1 / lf.userN1 < (Spec.lowPoint a lf i r b).1 := by
      have h1 : lf.userL1 < m * a.d1 := by rwa [div_lt_iff₀ hd1] at hm
      have h2 : (m : ℝ) * a.d1 ≤ i * a.d1 := mul_le_mul_of_nonneg_right (by exact_mod_cast hi) hd1.le
      have h3 : 0 ≤ (r : ℝ) * (a.d1 / (2 ^ a.l1 + 1)) := by positivity
      have h4 : 0 ≤ lf.userL1 / lf.userN1 := by positivity
      unfold Spec.lowPoint
      simp only
      linarith
    rw [hlo]
    fin_cases k
    · exact (C72_outside (by omega) (by omega) _ (Or.inr (Or.inl hx))).symm
    · exact (C72_outside (by omega) (by omega) _ (Or.inr (Or.inl hx))).symm
    · rfl
  have hlim := ((hav (⟨r, hr⟩, ⟨b, hb⟩, ⟨c, hc⟩, k)).add_const (Spec.meanPart a p c k)).add hlo0.cesaro
  rw [zero_add, add_zero] at hlim
  refine hlim.congr' ?_
  filter_upwards [eventually_gt_atTop 0] with n hn
  have hnr : (n : ℝ) ≠ 0 := by exact_mod_cast hn.ne'
  rw [Finset.sum_congr rfl (hread n), Finset.sum_add_distrib, Finset.sum_add_distrib, Finset.sum_const, Finset.card_range,
    nsmul_eq_mul, add_div, add_div, mul_div_cancel_left₀ _ hnr]
  ring

/-- **C127** (repeated calls).  With probability one, the average over repeated calls of one block each of the wind at a given
point of the appended block tends to the mean wind plus the low-frequency field at that point of the first block: every call
restarts the low-frequency field, so its contribution does not average out. -/
theorem C127_repeat (S : Spec.LowSetting μ ξ ν γ env a g cfg lf p) : ∀ᵐ ω ∂μ, ∀ r < g.Nx, ∀ b < g.Ny, ∀ c < g.Nz, ∀ k,
    Tendsto (fun n : ℕ => (∑ j ∈ Finset.range n, Spec.wind env { a with low := some cfg } (fun n => ξ n ω) (fun n => γ n ω)
      (List.replicate j (1, p)) p 1 (j * g.Nx + r) b c k) / n) atTop
      (𝓝 (Spec.meanPart a p c k + Spec.lowPart lf (Spec.lowField lf (fun n => γ n ω) env.globPos) k
        (Spec.lowPoint a lf 0 r b).1 (Spec.lowPoint a lf 0 r b).2)) := by
  filter_upwards [spot_value S, fluct_average_zero S] with ω hω hav r hr b hb c hc k
  obtain ⟨lo, hlo⟩ : ∃ lo : ℝ, lo = Spec.lowPart lf (Spec.lowField lf (fun n => γ n ω) env.globPos) k
    (Spec.lowPoint a lf 0 r b).1 (Spec.lowPoint a lf 0 r b).2 := ⟨_, rfl⟩
  rw [← hlo]
  have hread : ∀ j : ℕ, Spec.wind env { a with low := some cfg } (fun n => ξ n ω) (fun n => γ n ω) (List.replicate j (1, p)) p 1
      (j * g.Nx + r) b c k = g.fluct (fun n => ξ n ω) j (⟨r, hr⟩, ⟨b, hb⟩, ⟨c, hc⟩, k) + (Spec.meanPart a p c k + lo) := by
    intro j
    have := (hω ⟨List.replicate j (1, p), (fun c hc => by rw [List.eq_of_mem_replicate hc]; exact S.profile), 1, 0, one_pos, ⟨r, hr⟩,
      ⟨b, hb⟩, ⟨c, hc⟩, k⟩).1
    simp only [Spec.Spot.wind, Spec.Spot.low, Spec.Spot.block, List.map_replicate, List.sum_replicate, smul_eq_mul, mul_one,
      add_zero] at this
    rw [this, hlo]
    ring
  have hlim := (hav (⟨r, hr⟩, ⟨b, hb⟩, ⟨c, hc⟩, k)).add_const (Spec.meanPart a p c k + lo)
  rw [zero_add] at hlim
  refine hlim.congr' ?_
  filter_upwards [eventually_gt_atTop 0] with n hn
  have hnr : (n : ℝ) ≠ 0 := by exact_mod_cast hn.ne'
  rw [Finset.sum_congr rfl fun j _ => hread j, Finset.sum_add_distrib, Finset.sum_const, Finset.card_range, nsmul_eq_mul, add_div,
    mul_div_cancel_left₀ _ hnr]

/-- **C127** (repeated calls do not converge to the mean wind).  For a low-frequency model that fits the box, the mean square of
the difference between the limit of `C127_repeat` and the mean wind is, at the first point of the block, the whole positive
variance of the low-frequency field. -/
theorem C127_repeat_bias (S : Spec.LowSetting μ ξ ν γ env a g cfg lf p) {m : ℕ} (hfit : cfg.Fits a.d1 a.d2 m) :
    ∃ limit : Ω → ℝ, (∀ᵐ ω ∂μ, Tendsto (fun n : ℕ => (∑ j ∈ Finset.range n, Spec.wind env { a with low := some cfg } (fun n => ξ n ω)
        (fun n => γ n ω) (List.replicate j (1, p)) p 1 (j * g.Nx) 0 0 0) / n) atTop (𝓝 (limit ω))) ∧
      ∫ ω, (limit ω - Spec.meanPart a p 0 0) ^ 2 ∂μ = Spec.lowVariance μ lf γ env.globPos 0 ∧
      0 < Spec.lowVariance μ lf γ env.globPos 0 := by
  obtain ⟨L1, L2, N1, N2, c1, c2⟩ := lf_facts S.pos S.exp1 S.exp2 S.low
  obtain ⟨kc, ecfg, k1, k2, -, kd, kl, kcut⟩ := hfit.grid S.low
  haveI : NeZero lf.compN1 := ⟨c1.ne'⟩
  haveI : NeZero lf.compN2 := ⟨c2.ne'⟩
  have hl2 : lf.userL2 = a.d2 := by
    obtain ⟨c, hc⟩ := lfInit_computeC S.low
    obtain ⟨lf0, h0, -, -, -, -, -, l2, -⟩ := lfInit_ok S.pos hc
    rw [S.low] at h0
    obtain rfl := Except.ok.inj h0
    rw [l2, hfit.width]
  have hpt : Spec.lowPoint a lf 0 0 0 = (((0 : ℕ) : ℝ) * (lf.userL1 / lf.userN1), ((0 : ℕ) : ℝ) * (lf.userL2 / lf.userN2)) := by
    unfold Spec.lowPoint
    rw [hl2]
    simp
  have hlow : ∀ ω, Spec.lowPart lf (Spec.lowField lf (fun n => γ n ω) env.globPos) 0 (Spec.lowPoint a lf 0 0 0).1
      (Spec.lowPoint a lf 0 0 0).2 = (Spec.lowField lf (fun n => γ n ω) env.globPos).1.entry 0 0 := by
    intro ω
    rw [hpt]
    exact C72_nodes L1 L2 N1 N2 _ (by omega) (by omega)
  obtain ⟨-, -, -, -, -, -, q1, q2, q3⟩ := S.good.shapes
  refine ⟨fun ω => Spec.meanPart a p 0 0 + (Spec.lowField lf (fun n => γ n ω) env.globPos).1.entry 0 0, ?_, ?_, ?_⟩
  · filter_upwards [C127_repeat S] with ω hω
    have := hω 0 q1 0 q2 0 q3 0
    rwa [hlow] at this
  · simp only [add_sub_cancel_left]
    rfl
  · show 0 < ∫ ω, (Spec.pick 0 (Spec.lowField lf (fun n => γ n ω) env.globPos)).entry 0 0 ^ 2 ∂μ
    have hi : 0 < lf.userN1 := by omega
    have hj : 0 < lf.userN2 := by omega
    obtain ⟨x, hx⟩ : ∃ x : Box lf.compN1 lf.compN2 1,
      x = ((((lf.compN1 - lf.userN1) / 2 + 0 : ℕ) : ZMod lf.compN1), (((lf.compN2 - lf.userN2) / 2 + 0 : ℕ) : ZMod lf.compN2), 0) :=
      ⟨_, rfl⟩
    simp only [lowField_entry S.pos S.low _ env.globPos 0 hi hj, ← hx, sq]
    rw [lf_cov (fun z ω => lfNoise (fun m => γ m ω) env.globPos z) (fun z => S.square _)
      (fun y z => lfNoise_white γ S.white env.globPos y z)]
    obtain ⟨noise, hn⟩ := lfFull_combination (m := 1) lf 0 (fun _ => 1) (fun _ => x)
      (lfQr_ne (n1 := lf.compN1) (n2 := lf.compN2) lf kc (by rw [ecfg]; exact S.pos.1) kcut (by omega) kd kl 0)
      (by simpa using wave_ne_zero _ x)
    have hn' : lfFull lf noise 0 x ≠ 0 := by simpa using hn
    rw [lfFull_imp] at hn'
    obtain ⟨z, -, hz⟩ := Finset.exists_ne_zero_of_sum_ne_zero hn'
    exact Finset.sum_pos' (fun z _ => mul_self_nonneg _) ⟨z, Finset.mem_univ _, mul_self_pos.2 (left_ne_zero_of_mul hz)⟩

end

/-- The hypotheses of C127 can be met: the example box with the example low-frequency model, two independent sequences of
independent normal values. -/
theorem lowSetting_example (env : GenEnv) : ∃ g lf, Spec.LowSetting
      ((Measure.infinitePi fun _ : ℕ => gaussianReal 0 1).prod (Measure.infinitePi fun _ : ℕ => gaussianReal 0 1))
      (fun n ω => ω.1 n) (gaussianReal 0 1) (fun n ω => ω.2 n) env exampleArgs g exampleLow lf ⟨90, 11, 0.03, "LOG", none⟩ ∧
    exampleLow.Fits exampleArgs.d1 exampleArgs.d2 8 ∧ Nonempty (Spec.Spot g) := by
  obtain ⟨h1, h2, ⟨g, hg, hK⟩, -⟩ := exampleArgs_physical env
  have hpos : exampleLow.Pos := ⟨by norm_num [exampleLow], by norm_num [exampleLow], by norm_num [exampleLow]⟩
  obtain ⟨lf, hlf⟩ := (C67_total hpos).2
    (C71_defined _ (by norm_num [exampleLow]) (by norm_num [exampleLow]) (by rw [abs_of_pos] <;> norm_num [exampleLow]))
  have hfit : exampleLow.Fits exampleArgs.d1 exampleArgs.d2 8 := by
    refine ⟨hpos, ?_, ?_, ?_, ?_, ?_, ?_, ?_, ?_⟩ <;> norm_num [exampleLow, exampleArgs]
  obtain ⟨-, -, -, -, -, -, q1, q2, q3⟩ := (genInit_good h1 hg).shapes
  have ev : ∀ n, (Measure.infinitePi fun _ : ℕ => gaussianReal 0 1).map (fun ω => ω n) = gaussianReal 0 1 := fun n =>
    Measure.infinitePi_map_eval (fun _ => gaussianReal 0 1) n
  have hind : iIndepFun (fun n (ω : ℕ → ℝ) => ω n) (Measure.infinitePi fun _ : ℕ => gaussianReal 0 1) :=
    iIndepFun_infinitePi (P := fun _ => gaussianReal 0 1) (X := fun _ x => x) fun _ => measurable_id
  have mp1 := measurePreserving_fst (μ := Measure.infinitePi fun _ : ℕ => gaussianReal 0 1)
    (ν := Measure.infinitePi fun _ : ℕ => gaussianReal 0 1)
  have mp2 := measurePreserving_snd (μ := Measure.infinitePi fun _ : ℕ => gaussianReal 0 1)
    (ν := Measure.infinitePi fun _ : ℕ => gaussianReal 0 1)
  have mpn : ∀ n, MeasurePreserving (fun ω : (ℕ → ℝ) × (ℕ → ℝ) => ω.2 n)
      ((Measure.infinitePi fun _ : ℕ => gaussianReal 0 1).prod (Measure.infinitePi fun _ : ℕ => gaussianReal 0 1))
      (gaussianReal 0 1) := fun n => (⟨measurable_pi_apply n, ev n⟩ : MeasurePreserving (fun ω : ℕ → ℝ => ω n) _ _).comp mp2
  have hsq : ∀ m, MemLp (fun ω : (ℕ → ℝ) × (ℕ → ℝ) => ω.2 m) 2
      ((Measure.infinitePi fun _ : ℕ => gaussianReal 0 1).prod (Measure.infinitePi fun _ : ℕ => gaussianReal 0 1)) := fun m =>
    (memLp_id_gaussianReal 2).comp_measurePreserving (mpn m)
  have hmean : ∀ m, ∫ ω : (ℕ → ℝ) × (ℕ → ℝ), ω.2 m
      ∂((Measure.infinitePi fun _ : ℕ => gaussianReal 0 1).prod (Measure.infinitePi fun _ : ℕ => gaussianReal 0 1)) = 0 := by
    intro m
    have := integral_id_gaussianReal (μ := 0) (v := 1)
    rw [← (mpn m).map_eq, integral_map (f := fun x : ℝ => x) (mpn m).measurable.aemeasurable aestronglyMeasurable_id] at this
    exact this
  have hind2 : ∀ m n, m ≠ n → IndepFun (fun ω : (ℕ → ℝ) × (ℕ → ℝ) => ω.2 m) (fun ω => ω.2 n)
      ((Measure.infinitePi fun _ : ℕ => gaussianReal 0 1).prod (Measure.infinitePi fun _ : ℕ => gaussianReal 0 1)) := by
    intro m n hmn
    have h0 := hind.indepFun hmn
    rw [indepFun_iff_map_prod_eq_prod_map_map (measurable_pi_apply m).aemeasurable (measurable_pi_apply n).aemeasurable] at h0
    rw [indepFun_iff_map_prod_eq_prod_map_map (mpn m).measurable.aemeasurable (mpn n).measurable.aemeasurable, (mpn m).map_eq,
      (mpn n).map_eq]
    rw [ev, ev] at h0
    have hm : Measurable fun ω : ℕ → ℝ => (ω m, ω n) := by fun_prop
    rw [← h0]
    exact ((⟨hm, rfl⟩ : MeasurePreserving (fun ω : ℕ → ℝ => (ω m, ω n)) _ _).comp mp2).map_eq
  refine ⟨g, lf, ⟨⟨fun n => (measurable_pi_apply n).comp measurable_fst, ?_, fun n => ?_⟩, fun x => ?_, ?_, hsq, hmean, ?_, ?_, h1, h2,
    rfl, ⟨_, hg⟩, hK, hpos, by norm_num [exampleLow], by norm_num [exampleLow], hlf, ⟨Or.inl rfl, by norm_num, by norm_num, by norm_num⟩,
    fun _ => by norm_num, fun e h => by cases h⟩, hfit, ⟨⟨[], (fun c hc => by cases hc), 1, 0, one_pos, ⟨0, q1⟩, ⟨0, q2⟩, ⟨0, q3⟩, 0⟩⟩⟩
  · have hm : ∀ n, Measurable fun ω : (ℕ → ℝ) × (ℕ → ℝ) => ω.1 n := fun n => (measurable_pi_apply n).comp measurable_fst
    rw [iIndepFun_iff_map_fun_eq_infinitePi_map hm]
    have e : ∀ n, ((Measure.infinitePi fun _ : ℕ => gaussianReal 0 1).prod (Measure.infinitePi fun _ : ℕ => gaussianReal 0 1)).map
        (fun ω : (ℕ → ℝ) × (ℕ → ℝ) => ω.1 n) = gaussianReal 0 1 := fun n =>
      ((⟨measurable_pi_apply n, ev n⟩ : MeasurePreserving (fun ω : ℕ → ℝ => ω n) _ _).comp mp1).map_eq
    simp only [e]
    exact mp1.map_eq
  · exact ((⟨measurable_pi_apply n, ev n⟩ : MeasurePreserving (fun ω : ℕ → ℝ => ω n) _ _).comp mp1).map_eq
  · have : NullSingletonClass (gaussianReal 0 1) := nullSingletonClass_gaussianReal one_ne_zero
    exact measure_singleton x
  · have := gaussianReal_map_neg (μ := 0) (v := 1)
    simpa using this
  · intro m n
    split_ifs with h
    · subst h
      have hv := variance_id_gaussianReal (μ := 0) (v := 1)
      rw [← (mpn m).map_eq, variance_map aemeasurable_id (mpn m).measurable.aemeasurable] at hv
      have := variance_of_integral_eq_zero (mpn m).measurable.aemeasurable (hmean m)
      have e : Var[id ∘ fun ω : (ℕ → ℝ) × (ℕ → ℝ) => ω.2 m;
        (Measure.infinitePi fun _ : ℕ => gaussianReal 0 1).prod (Measure.infinitePi fun _ : ℕ => gaussianReal 0 1)] = 1 := by
        simpa using hv
      rw [show (id ∘ fun ω : (ℕ → ℝ) × (ℕ → ℝ) => ω.2 m) = fun ω => ω.2 m from rfl, this] at e
      simpa [sq] using e
    · rw [(hind2 m n h).integral_fun_mul_eq_mul_integral (hsq m).1 (hsq n).1, hmean, zero_mul]
  · exact indepFun_prod (μ := Measure.infinitePi fun _ : ℕ => gaussianReal 0 1) (ν := Measure.infinitePi fun _ : ℕ => gaussianReal 0 1)
      (X := id) (Y := id) measurable_id measurable_id

end
end Verif
