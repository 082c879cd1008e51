import Verif.Props.LowFreqExpected
import Verif.Props.GeneratorLaw
import Verif.Model.LowFreqFigures

/-!
# The variance studies and the averaged spectra of figure 2 (C112, C113)
-/

namespace Verif
open Fl

noncomputable section
open Classical MeasureTheory ProbabilityTheory Filter Topology

/-! ### Variance of one realization -/

theorem sum4_cos (n m : ℕ) (hn : 0 < n) (hm : 0 < m) (x y : ℝ) :
    ∑ i ∈ Finset.range n, ∑ j ∈ Finset.range m, ∑ i' ∈ Finset.range n, ∑ j' ∈ Finset.range m,
      Real.cos (x * ((i : ℝ) - i') + y * ((j : ℝ) - j')) =
    (n : ℝ) ^ 2 * (m : ℝ) ^ 2 * (Spec.fejer n x * Spec.fejer m y) := by
  have hs : ∀ (n : ℕ) (x : ℝ), ∑ i ∈ Finset.range n, ∑ i' ∈ Finset.range n, Real.sin (x * ((i : ℝ) - i')) = 0 := by
    intro n x
    have h : ∑ i ∈ Finset.range n, ∑ i' ∈ Finset.range n, Real.sin (x * ((i : ℝ) - i')) =
        -∑ i ∈ Finset.range n, ∑ i' ∈ Finset.range n, Real.sin (x * ((i : ℝ) - i')) := by
      conv_lhs => rw [Finset.sum_comm]
      rw [← Finset.sum_neg_distrib]
      refine Finset.sum_congr rfl fun i _ => ?_
      rw [← Finset.sum_neg_distrib]
      refine Finset.sum_congr rfl fun i' _ => ?_
      rw [← Real.sin_neg]
      congr 1
      ring
    linarith
  have e : ∀ i ∈ Finset.range n, ∑ j ∈ Finset.range m, ∑ i' ∈ Finset.range n, ∑ j' ∈ Finset.range m,
      Real.cos (x * ((i : ℝ) - i') + y * ((j : ℝ) - j')) =
      ∑ i' ∈ Finset.range n, (Real.cos (x * ((i : ℝ) - i')) * ((m : ℝ) ^ 2 * Spec.fejer m y)) := by
    intro i _
    rw [Finset.sum_comm]
    refine Finset.sum_congr rfl fun i' _ => ?_
    simp only [Real.cos_add, Finset.sum_sub_distrib, ← Finset.mul_sum]
    rw [hs, fejer_sum m hm]
    ring
  rw [Finset.sum_congr rfl e]
  simp only [← Finset.sum_mul]
  rw [fejer_sum n hn]
  ring

/-- An array cut out of the field on the computational grid. -/
def IsCrop (lf : LowFreq) [NeZero lf.compN1] [NeZero lf.compN2] (noise : Box lf.compN1 lf.compN2 1 → ℝ) (c : Fin 2)
    (s t n m : ℕ) (u : Mat) : Prop :=
  u.HasShape n m ∧ ∀ i < n, ∀ j < m, u.entry i j = lfFull lf noise c ((s + i : ℕ), (t + j : ℕ), 0)

theorem IsCrop.var_eq {lf : LowFreq} [NeZero lf.compN1] [NeZero lf.compN2] {noise : Box lf.compN1 lf.compN2 1 → ℝ} {c : Fin 2}
    {s t n m : ℕ} {u : Mat} (h : IsCrop lf noise c s t n m u) (hn : 0 < n) (hm : 0 < m) :
    u.var = (∑ i ∈ Finset.range n, ∑ j ∈ Finset.range m, lfFull lf noise c ((s + i : ℕ), (t + j : ℕ), 0) ^ 2) / (n * m : ℕ) -
      ((∑ i ∈ Finset.range n, ∑ j ∈ Finset.range m, lfFull lf noise c ((s + i : ℕ), (t + j : ℕ), 0)) / (n * m : ℕ)) ^ 2 := by
  rw [h.1.var_eq hn hm, h.1.mean_eq]
  have e : ∀ f : ℝ → ℝ, ∑ i ∈ Finset.range n, ∑ j ∈ Finset.range m, f (u.entry i j) =
      ∑ i ∈ Finset.range n, ∑ j ∈ Finset.range m, f (lfFull lf noise c ((s + i : ℕ), (t + j : ℕ), 0)) := fun f =>
    Finset.sum_congr rfl fun i hi => Finset.sum_congr rfl fun j hj => by
      rw [h.2 i (Finset.mem_range.1 hi) j (Finset.mem_range.1 hj)]
  rw [e (fun x => x ^ 2), e (fun x => x)]

theorem lfFull_memLp {Ω : Type} [MeasurableSpace Ω] {μ : Measure Ω} (lf : LowFreq) [NeZero lf.compN1] [NeZero lf.compN2]
    (γ : ℕ → Ω → ℝ) (hL2 : ∀ m, MemLp (γ m) 2 μ) (pos : ℕ) (c : Fin 2) (x : Box lf.compN1 lf.compN2 1) :
    MemLp (fun ω => lfFull lf (fun z : Box lf.compN1 lf.compN2 1 => lfNoise (fun m => γ m ω) pos z) c x) 2 μ := by
  simp only [lfFull_imp]
  exact memLp_finsetSum _ fun z _ => (hL2 _).const_mul _

theorem sum2_sq (n m : ℕ) (f : ℕ → ℕ → ℝ) : (∑ i ∈ Finset.range n, ∑ j ∈ Finset.range m, f i j) ^ 2 =
    ∑ i ∈ Finset.range n, ∑ j ∈ Finset.range m, ∑ i' ∈ Finset.range n, ∑ j' ∈ Finset.range m, f i j * f i' j' := by
  rw [sq]
  simp only [Finset.sum_mul, Finset.mul_sum]
  refine Finset.sum_congr rfl fun i _ => Finset.sum_congr rfl fun j _ => Finset.sum_congr rfl fun i' _ =>
    Finset.sum_congr rfl fun j' _ => mul_comm _ _

/-- Expected `np.var` of a crop. -/
theorem expected_var {Ω : Type} [MeasurableSpace Ω] {μ : Measure Ω} {cfg : LFConfig} {lf : LowFreq}
    (r : LowFreqRegular cfg lf) [NeZero lf.compN1] [NeZero lf.compN2] (γ : ℕ → Ω → ℝ) (hL2 : ∀ m, MemLp (γ m) 2 μ)
    (hcov : ∀ m n, ∫ ω, γ m ω * γ n ω ∂μ = if m = n then 1 else 0) (pos : ℕ) (c : Fin 2) {s t n m : ℕ} (hn : 0 < n)
    (hm : 0 < m) {u : Ω → Mat} (hu : ∀ ω, IsCrop lf (fun z => lfNoise (fun m => γ m ω) pos z) c s t n m (u ω)) :
    Integrable (fun ω => (u ω).var) μ ∧ ∫ ω, (u ω).var ∂μ =
      ∑ p ∈ Finset.range lf.compN1, ∑ q ∈ Finset.range lf.compN2, Spec.modeVariance cfg lf c p q *
        (1 - Spec.fejer n (Spec.waveNumber lf.compN1 lf.compDx p * lf.compDx) *
          Spec.fejer m (Spec.waveNumber lf.compN2 lf.compDy q * lf.compDy)) := by
  set X : ℕ → ℕ → Ω → ℝ := fun i j ω =>
    lfFull lf (fun z : Box lf.compN1 lf.compN2 1 => lfNoise (fun m => γ m ω) pos z) c ((s + i : ℕ), (t + j : ℕ), 0) with hX
  have hXm : ∀ i j, MemLp (X i j) 2 μ := fun i j => lfFull_memLp lf γ hL2 pos c _
  have hvar : ∀ ω, (u ω).var = (∑ i ∈ Finset.range n, ∑ j ∈ Finset.range m, X i j ω * X i j ω) / (n * m : ℕ) -
      (∑ i ∈ Finset.range n, ∑ j ∈ Finset.range m, ∑ i' ∈ Finset.range n, ∑ j' ∈ Finset.range m,
        X i j ω * X i' j' ω) / ((n * m : ℕ) : ℝ) ^ 2 := by
    intro ω
    rw [(hu ω).var_eq hn hm, div_pow, sum2_sq]
    simp only [pow_two (lfFull _ _ _ _)]
    rfl
  simp only [hvar]
  have hi : ∀ i j i' j', Integrable (fun ω => X i j ω * X i' j' ω) μ := fun i j i' j' => (hXm i j).integrable_mul (hXm i' j')
  have h1 : Integrable (fun ω => (∑ i ∈ Finset.range n, ∑ j ∈ Finset.range m, X i j ω * X i j ω) / ((n * m : ℕ) : ℝ)) μ :=
    (integrable_finsetSum _ fun i _ => integrable_finsetSum _ fun j _ => hi i j i j).div_const _
  have h2 : Integrable (fun ω => (∑ i ∈ Finset.range n, ∑ j ∈ Finset.range m, ∑ i' ∈ Finset.range n, ∑ j' ∈ Finset.range m,
        X i j ω * X i' j' ω) / ((n * m : ℕ) : ℝ) ^ 2) μ :=
    (integrable_finsetSum _ fun i _ => integrable_finsetSum _ fun j _ => integrable_finsetSum _ fun i' _ =>
      integrable_finsetSum _ fun j' _ => hi i j i' j').div_const _
  refine ⟨h1.sub h2, ?_⟩
  rw [integral_sub h1 h2, integral_div, integral_div,
    integral_finsetSum _ fun i _ => integrable_finsetSum _ fun j _ => hi i j i j,
    integral_finsetSum _ fun i _ => integrable_finsetSum _ fun j _ => integrable_finsetSum _ fun i' _ =>
      integrable_finsetSum _ fun j' _ => hi i j i' j']
  have hc : ∀ i j i' j', ∫ ω, X i j ω * X i' j' ω ∂μ =
      ∑ a ∈ Finset.range lf.compN1, ∑ b ∈ Finset.range lf.compN2, Spec.modeVariance cfg lf c a b *
        Real.cos (Spec.waveNumber lf.compN1 lf.compDx a * lf.compDx * ((i : ℝ) - i') +
          Spec.waveNumber lf.compN2 lf.compDy b * lf.compDy * ((j : ℝ) - j')) := fun i j i' j' =>
    lfFull_covariance r γ hL2 hcov pos c s t i i' j j'
  have a1 : ∀ i ∈ Finset.range n, ∫ ω, ∑ j ∈ Finset.range m, X i j ω * X i j ω ∂μ =
      m * ∑ a ∈ Finset.range lf.compN1, ∑ b ∈ Finset.range lf.compN2, Spec.modeVariance cfg lf c a b := by
    intro i _
    rw [integral_finsetSum _ fun j _ => hi i j i j]
    simp only [hc, sub_self, mul_zero, add_zero, Real.cos_zero, mul_one]
    rw [Finset.sum_const, Finset.card_range, nsmul_eq_mul]
  have a2 : ∀ i ∈ Finset.range n, ∫ ω, ∑ j ∈ Finset.range m, ∑ i' ∈ Finset.range n, ∑ j' ∈ Finset.range m,
        X i j ω * X i' j' ω ∂μ = ∑ j ∈ Finset.range m, ∑ i' ∈ Finset.range n, ∑ j' ∈ Finset.range m,
      ∑ a ∈ Finset.range lf.compN1, ∑ b ∈ Finset.range lf.compN2, Spec.modeVariance cfg lf c a b *
        Real.cos (Spec.waveNumber lf.compN1 lf.compDx a * lf.compDx * ((i : ℝ) - i') +
          Spec.waveNumber lf.compN2 lf.compDy b * lf.compDy * ((j : ℝ) - j')) := by
    intro i _
    rw [integral_finsetSum _ fun j _ => integrable_finsetSum _ fun i' _ => integrable_finsetSum _ fun j' _ => hi i j i' j']
    refine Finset.sum_congr rfl fun j _ => ?_
    rw [integral_finsetSum _ fun i' _ => integrable_finsetSum _ fun j' _ => hi i j i' j']
    refine Finset.sum_congr rfl fun i' _ => ?_
    rw [integral_finsetSum _ fun j' _ => hi i j i' j']
    exact Finset.sum_congr rfl fun j' _ => hc i j i' j'
  rw [Finset.sum_congr rfl a1, Finset.sum_congr rfl a2, Finset.sum_const, Finset.card_range, nsmul_eq_mul]
  have swap : ∀ g : ℕ → ℕ → ℕ → ℕ → ℕ → ℕ → ℝ, ∑ i ∈ Finset.range n, ∑ j ∈ Finset.range m, ∑ i' ∈ Finset.range n,
      ∑ j' ∈ Finset.range m, ∑ a ∈ Finset.range lf.compN1, ∑ b ∈ Finset.range lf.compN2, g i j i' j' a b =
      ∑ a ∈ Finset.range lf.compN1, ∑ b ∈ Finset.range lf.compN2, ∑ i ∈ Finset.range n, ∑ j ∈ Finset.range m,
        ∑ i' ∈ Finset.range n, ∑ j' ∈ Finset.range m, g i j i' j' a b := by
    intro g
    have e : ∀ h : ℕ → ℕ → ℝ, ∑ a ∈ Finset.range lf.compN1, ∑ b ∈ Finset.range lf.compN2, h a b =
        ∑ x ∈ Finset.range lf.compN1 ×ˢ Finset.range lf.compN2, h x.1 x.2 := fun h => (Finset.sum_product' _ _ _).symm
    rw [e]
    simp only [e]
    calc _ = ∑ i ∈ Finset.range n, ∑ j ∈ Finset.range m, ∑ i' ∈ Finset.range n,
          ∑ x ∈ Finset.range lf.compN1 ×ˢ Finset.range lf.compN2, ∑ j' ∈ Finset.range m, g i j i' j' x.1 x.2 :=
          Finset.sum_congr rfl fun i _ => Finset.sum_congr rfl fun j _ => Finset.sum_congr rfl fun i' _ => Finset.sum_comm
      _ = ∑ i ∈ Finset.range n, ∑ j ∈ Finset.range m,
          ∑ x ∈ Finset.range lf.compN1 ×ˢ Finset.range lf.compN2, ∑ i' ∈ Finset.range n, ∑ j' ∈ Finset.range m,
            g i j i' j' x.1 x.2 :=
          Finset.sum_congr rfl fun i _ => Finset.sum_congr rfl fun j _ => Finset.sum_comm
      _ = ∑ i ∈ Finset.range n, ∑ x ∈ Finset.range lf.compN1 ×ˢ Finset.range lf.compN2, ∑ j ∈ Finset.range m,
          ∑ i' ∈ Finset.range n, ∑ j' ∈ Finset.range m, g i j i' j' x.1 x.2 :=
          Finset.sum_congr rfl fun i _ => Finset.sum_comm
      _ = _ := Finset.sum_comm
  rw [swap]
  simp only [← Finset.mul_sum, sum4_cos n m hn hm]
  have q1 : (n : ℝ) ≠ 0 := by exact_mod_cast hn.ne'
  have q2 : (m : ℝ) ≠ 0 := by exact_mod_cast hm.ne'
  simp only [mul_sub, mul_one, Finset.sum_sub_distrib]
  congr 1
  · push_cast
    field_simp
  · rw [Finset.sum_div]
    refine Finset.sum_congr rfl fun a _ => ?_
    rw [Finset.sum_div]
    refine Finset.sum_congr rfl fun b _ => ?_
    push_cast
    field_simp

/-- The variances of the realization that starts at position `p` of the stream. -/
def realization (lf : LowFreq) (g : ℕ → ℝ) (p : ℕ) : VarRow :=
  match lf.generate g p with
  | (.ok (u1, u2), (lf', _)) => match lf'.full with
    | some (f1, f2) => ⟨u1.var, u2.var, f1.var, f2.var⟩
    | none => ⟨0, 0, 0, 0⟩
  | _ => ⟨0, 0, 0, 0⟩

theorem generate_crop {cfg : LFConfig} (hp : cfg.Pos) {lf : LowFreq} (h : lfInit cfg = .ok lf) [NeZero lf.compN1]
    [NeZero lf.compN2] (g : ℕ → ℝ) (p : ℕ) :
    ∃ u1 u2 f1 f2, lf.generate g p = (.ok (u1, u2), ({ lf with full := some (f1, f2), u := some (u1, u2) },
        p + lf.compN1 * lf.compN2)) ∧
      IsCrop lf (lfNoise g p) 0 ((lf.compN1 - lf.userN1) / 2) ((lf.compN2 - lf.userN2) / 2) lf.userN1 lf.userN2 u1 ∧
      IsCrop lf (lfNoise g p) 1 ((lf.compN1 - lf.userN1) / 2) ((lf.compN2 - lf.userN2) / 2) lf.userN1 lf.userN2 u2 ∧
      IsCrop lf (lfNoise g p) 0 0 0 lf.compN1 lf.compN2 f1 ∧ IsCrop lf (lfNoise g p) 1 0 0 lf.compN1 lf.compN2 f2 := by
  obtain ⟨u1, u2, f1, f2, lf', hg, rfl, t1, t2, s1, s2, hent⟩ := generate_spec hp h g p
  obtain ⟨-, -, -, -, -, n1, n2⟩ := C67_grid hp h
  have hf := fun {i j : ℕ} (hi : i < lf.compN1) (hj : j < lf.compN2) => generate_full hg rfl hi hj
  refine ⟨u1, u2, f1, f2, hg, ⟨s1, fun i hi j hj => ?_⟩, ⟨s2, fun i hi j hj => ?_⟩, ⟨t1, fun i hi j hj => ?_⟩,
    ⟨t2, fun i hi j hj => ?_⟩⟩
  · exact (hent i hi j hj).1.trans (hf (by omega) (by omega)).1
  · exact (hent i hi j hj).2.trans (hf (by omega) (by omega)).2
  · rw [zero_add, zero_add]; exact (hf hi hj).1
  · rw [zero_add, zero_add]; exact (hf hi hj).2

theorem varianceLoop_ok {cfg : LFConfig} (hp : cfg.Pos) {lf : LowFreq} (h : lfInit cfg = .ok lf) (g : ℕ → ℝ) (R : ℕ) :
    ∀ (a b : Option (Mat × Mat)) (pos : ℕ), varianceLoop { lf with full := a, u := b } g R pos =
      .ok ((List.range R).map (fun r => realization lf g (pos + r * (lf.compN1 * lf.compN2))),
        pos + R * (lf.compN1 * lf.compN2)) := by
  obtain ⟨⟨-, c1, -, c2⟩, -⟩ := C67_grid hp h
  haveI : NeZero lf.compN1 := ⟨by omega⟩
  haveI : NeZero lf.compN2 := ⟨by omega⟩
  induction R with
  | zero => intro a b pos; simp [varianceLoop, pure, Except.pure]
  | succ R ih =>
    intro a b pos
    obtain ⟨u1, u2, f1, f2, hg, -⟩ := generate_crop hp h g pos
    have hr : realization lf g pos = ⟨u1.var, u2.var, f1.var, f2.var⟩ := by
      unfold realization
      rw [hg]
    have := ih (some (f1, f2)) (some (u1, u2)) (pos + lf.compN1 * lf.compN2)
    rw [varianceLoop, generate_again lf a b hg]
    simp only
    rw [this]
    simp only [pure, Except.pure]
    rw [List.range_succ_eq_map, List.map_cons, List.map_map]
    congr 2
    · rw [zero_mul, add_zero, hr]
      congr 1
      refine List.map_congr_left fun r _ => ?_
      simp only [Function.comp]
      congr 1
      rw [Nat.succ_mul]
      omega
    · rw [Nat.succ_mul]
      omega

/-- The variance the studies call `var(u1)`, `var(u2)` in one realization. -/
def VarRow.pick (c : Fin 2) (r : VarRow) : ℝ := match c with | 0 => r.var1 | 1 => r.var2

/-- The same before cropping. -/
def VarRow.pickFull (c : Fin 2) (r : VarRow) : ℝ := match c with | 0 => r.full1 | 1 => r.full2

theorem realization_crops {cfg : LFConfig} (hp : cfg.Pos) {lf : LowFreq} (h : lfInit cfg = .ok lf) [NeZero lf.compN1]
    [NeZero lf.compN2] (g : ℕ → ℝ) (p : ℕ) (c : Fin 2) : ∃ u f,
      IsCrop lf (lfNoise g p) c ((lf.compN1 - lf.userN1) / 2) ((lf.compN2 - lf.userN2) / 2) lf.userN1 lf.userN2 u ∧
      IsCrop lf (lfNoise g p) c 0 0 lf.compN1 lf.compN2 f ∧
      (realization lf g p).pick c = u.var ∧ (realization lf g p).pickFull c = f.var := by
  obtain ⟨u1, u2, f1, f2, hg, h1, h2, h3, h4⟩ := generate_crop hp h g p
  have hr : realization lf g p = ⟨u1.var, u2.var, f1.var, f2.var⟩ := by
    unfold realization
    rw [hg]
  rw [hr]
  clear * - h1 h2 h3 h4
  fin_cases c
  · exact ⟨u1, f1, h1, h3, rfl, rfl⟩
  · exact ⟨u2, f2, h2, h4, rfl, rfl⟩

/-- Expected variance of the crops of size `n` times `m` of component `c`. -/
def Spec.cropVariance (cfg : LFConfig) (lf : LowFreq) (c : Fin 2) (n m : ℕ) : ℝ :=
  ∑ p ∈ Finset.range lf.compN1, ∑ q ∈ Finset.range lf.compN2, Spec.modeVariance cfg lf c p q *
    (1 - Spec.fejer n (Spec.waveNumber lf.compN1 lf.compDx p * lf.compDx) *
      Spec.fejer m (Spec.waveNumber lf.compN2 lf.compDy q * lf.compDy))

theorem modeVariance_nonneg {cfg : LFConfig} {lf : LowFreq} (r : LowFreqRegular cfg lf) (c : Fin 2) (a b : ℕ) :
    0 ≤ Spec.modeVariance cfg lf c a b := by
  obtain ⟨cc, hcc⟩ := lfInit_computeC r.init
  obtain ⟨lf0, e0, -, hlc, -⟩ := lfInit_ok r.pos hcc
  rw [r.init] at e0
  obtain rfl := Except.ok.inj e0
  have hc : 0 ≤ lf.c := by rw [hlc]; exact ((C71_sign hcc).2 r.sigma2).le
  obtain ⟨-, ⟨x1, y1⟩, ⟨l1, l2⟩, ⟨m1, -⟩, ⟨m2, -⟩, -⟩ := C67_grid r.pos r.init
  have hL := r.pos.1
  have p1 : 0 < lf.compL1 := lt_of_lt_of_le (by positivity) ((le_max_right _ _).trans m1)
  have p2 : 0 < lf.compL2 := lt_of_lt_of_le (by positivity) ((le_max_right _ _).trans m2)
  have hpi := Real.pi_pos
  have hI : ∀ k2 k1, 0 ≤ lfIntegrand lf.c cfg.L2d cfg.psi cfg.zi c k2 k1 := by
    intro k2 k1
    have hE : 0 ≤ lfE lf.c cfg.L2d cfg.psi cfg.zi k1 k2 := by
      unfold lfE
      simp only
      split_ifs with h
      · exact le_rfl
      · push Not at h
        exact div_nonneg (mul_nonneg hc (by positivity)) (le_trans (by norm_num) h)
    unfold lfIntegrand
    simp only
    split_ifs
    · exact le_rfl
    · refine mul_nonneg (div_nonneg hE (by positivity)) (div_nonneg ?_ (by positivity))
      clear * -
      fin_cases c
      · exact sq_nonneg k2
      · exact sq_nonneg k1
  unfold Spec.modeVariance
  split_ifs
  · exact le_rfl
  · exact mul_nonneg (by positivity) (hI _ _)

theorem fejer_nonneg (n : ℕ) (x : ℝ) : 0 ≤ Spec.fejer n x := by unfold Spec.fejer; positivity

theorem cropVariance_full {cfg : LFConfig} {lf : LowFreq} (r : LowFreqRegular cfg lf) (c : Fin 2) :
    Spec.cropVariance cfg lf c lf.compN1 lf.compN2 =
      ∑ p ∈ Finset.range lf.compN1, ∑ q ∈ Finset.range lf.compN2, Spec.modeVariance cfg lf c p q := by
  obtain ⟨⟨-, c1, -, c2⟩, -⟩ := C67_grid r.pos r.init
  haveI : NeZero lf.compN1 := ⟨by omega⟩
  haveI : NeZero lf.compN2 := ⟨by omega⟩
  have hd0 : lf.compDx * lf.compDy ≠ 0 := (lt_of_lt_of_le (by norm_num) r.cell).ne'
  have d1 := left_ne_zero_of_mul hd0
  have d2 := right_ne_zero_of_mul hd0
  have hz : ∀ (n p : ℕ), ((signedIdx n p : ℤ) : ZMod n) = (p : ZMod n) := by
    intro n p
    unfold signedIdx
    split_ifs <;> simp
  have hf : ∀ (n : ℕ) [NeZero n] (d : ℝ) (p : ℕ), d ≠ 0 → p < n →
      Spec.fejer n (Spec.waveNumber n d p * d) = if p = 0 then 1 else 0 := by
    intro n _ d p hd hp
    have q0 : (n : ℝ) ≠ 0 := by exact_mod_cast NeZero.ne n
    have : Spec.waveNumber n d p * d = 2 * Real.pi * signedIdx n p / n := by
      rw [waveNumber_signed]
      field_simp
    rw [this, fejer_grid, hz]
    refine if_congr ?_ rfl rfl
    rw [ZMod.natCast_eq_zero_iff]
    exact ⟨fun h => Nat.eq_zero_of_dvd_of_lt h hp, fun h => h ▸ dvd_zero n⟩
  unfold Spec.cropVariance
  refine Finset.sum_congr rfl fun p hp => Finset.sum_congr rfl fun q hq => ?_
  rw [hf _ _ _ d1 (Finset.mem_range.1 hp), hf _ _ _ d2 (Finset.mem_range.1 hq)]
  by_cases h0 : p = 0 ∧ q = 0
  · obtain ⟨rfl, rfl⟩ := h0
    have z1 : ∀ {n : ℕ} (d : ℝ), 2 ≤ n → Spec.waveNumber n d 0 = 0 := by
      intro n d hn
      unfold Spec.waveNumber
      rw [if_pos (by omega)]
      simp
    have : Spec.modeVariance cfg lf c 0 0 = 0 := by
      unfold Spec.modeVariance
      rw [z1 _ c1, z1 _ c2]
      have : lfIntegrand lf.c cfg.L2d cfg.psi cfg.zi c 0 0 = 0 := by
        unfold lfIntegrand
        simp only
        rw [if_pos (by norm_num)]
      rw [this]
      simp
    rw [this]
    simp
  · have : (if p = 0 then (1 : ℝ) else 0) * (if q = 0 then 1 else 0) = 0 := by
      by_cases h1 : p = 0
      · rw [if_neg (fun h2 => h0 ⟨h1, h2⟩)]; simp
      · rw [if_neg h1]; simp
    rw [this]
    ring

/-- **C112** Expected variances of one realization: the returned fields have the sum of all mode variances less the variance of
their spatial mean (the Fejér terms), the fields before cropping have exactly the variance of their entries; so cropping only
lowers the expected variance, and without cropping it is the variance of every entry. -/
theorem C112_realization {Ω : Type} [MeasurableSpace Ω] {μ : Measure Ω} {cfg : LFConfig} {lf : LowFreq}
    (r : LowFreqRegular cfg lf) (γ : ℕ → Ω → ℝ) (hL2 : ∀ m, MemLp (γ m) 2 μ)
    (hcov : ∀ m n, ∫ ω, γ m ω * γ n ω ∂μ = if m = n then 1 else 0) (pos : ℕ) {u : Ω → Mat × Mat} {f : Ω → Mat × Mat}
    (hu : ∀ ω, ∃ lf' q, lf.generate (fun m => γ m ω) pos = (.ok (u ω), (lf', q)) ∧ lf'.full = some (f ω)) (c : Fin 2) :
    ∫ ω, (Spec.pick c (u ω)).var ∂μ = Spec.cropVariance cfg lf c lf.userN1 lf.userN2 ∧
    (∀ i < lf.userN1, ∀ j < lf.userN2, ∫ ω, (Spec.pick c (f ω)).var ∂μ = ∫ ω, (Spec.pick c (u ω)).entry i j ^ 2 ∂μ) ∧
    ∫ ω, (Spec.pick c (u ω)).var ∂μ ≤ ∫ ω, (Spec.pick c (f ω)).var ∂μ ∧
    (lf.compN1 = lf.userN1 → lf.compN2 = lf.userN2 →
      ∫ ω, (Spec.pick c (u ω)).var ∂μ = ∫ ω, (Spec.pick c (f ω)).var ∂μ) := by
  obtain ⟨⟨-, c1, -, c2⟩, -, -, -, -, n1, n2⟩ := C67_grid r.pos r.init
  haveI : NeZero lf.compN1 := ⟨by omega⟩
  haveI : NeZero lf.compN2 := ⟨by omega⟩
  obtain ⟨cc, hcc⟩ := lfInit_computeC r.init
  obtain ⟨lf0, e0, -, -, -, -, -, -, hN1, hN2, -⟩ := lfInit_ok r.pos hcc
  rw [r.init] at e0
  obtain rfl := Except.ok.inj e0
  have q1 : 0 < lf.userN1 := by rw [hN1]; positivity
  have q2 : 0 < lf.userN2 := by rw [hN2]; positivity
  have hcrop : ∀ ω, IsCrop lf (fun z => lfNoise (fun m => γ m ω) pos z) c ((lf.compN1 - lf.userN1) / 2)
        ((lf.compN2 - lf.userN2) / 2) lf.userN1 lf.userN2 (Spec.pick c (u ω)) ∧
      IsCrop lf (fun z => lfNoise (fun m => γ m ω) pos z) c 0 0 lf.compN1 lf.compN2 (Spec.pick c (f ω)) := by
    intro ω
    obtain ⟨lf', q, hg, hf⟩ := hu ω
    obtain ⟨u1, u2, f1, f2, hg', h1, h2, h3, h4⟩ := generate_crop r.pos r.init (fun m => γ m ω) pos
    rw [hg] at hg'
    simp only [Prod.mk.injEq, Except.ok.injEq] at hg'
    obtain ⟨e1, e2, -⟩ := hg'
    rw [e2] at hf
    simp only [Option.some.injEq] at hf
    rw [e1, ← hf]
    clear * - h1 h2 h3 h4
    fin_cases c
    · exact ⟨h1, h3⟩
    · exact ⟨h2, h4⟩
  have E1 := (expected_var r γ hL2 hcov pos c q1 q2 fun ω => (hcrop ω).1).2
  have E2 := (expected_var r γ hL2 hcov pos c (NeZero.pos _) (NeZero.pos _) fun ω => (hcrop ω).2).2
  have E2' : ∫ ω, (Spec.pick c (f ω)).var ∂μ =
      ∑ p ∈ Finset.range lf.compN1, ∑ q ∈ Finset.range lf.compN2, Spec.modeVariance cfg lf c p q := by
    rw [E2]
    exact cropVariance_full r c
  refine ⟨E1, ?_, ?_, ?_⟩
  · intro i hi j hj
    have := C111_covariance r γ hL2 hcov pos (u := u) (fun ω => by
      obtain ⟨lf', q, hg, -⟩ := hu ω
      exact ⟨_, hg⟩) c hi hi hj hj
    simp only [sub_self, mul_zero, add_zero, Real.cos_zero, mul_one] at this
    rw [E2', ← this]
    simp only [sq]
  · rw [E1, E2']
    refine Finset.sum_le_sum fun p _ => Finset.sum_le_sum fun q _ => ?_
    have h1 := modeVariance_nonneg r c p q
    have h2 := mul_nonneg (fejer_nonneg lf.userN1 (Spec.waveNumber lf.compN1 lf.compDx p * lf.compDx))
      (fejer_nonneg lf.userN2 (Spec.waveNumber lf.compN2 lf.compDy q * lf.compDy))
    nlinarith
  · intro e1 e2
    rw [E1, E2, e1, e2]

end
end Verif
