import Verif.Props.LowFreqAverages
import Mathlib.Probability.Distributions.Gaussian.Real

/-!
# C112, C113: what the averages over realizations of the low-frequency studies converge to
-/

namespace Verif
open Fl MeasureTheory ProbabilityTheory Filter Topology

noncomputable section
open Classical

/-! ### Averages along a stream -/

section
variable {Ω : Type} [MeasurableSpace Ω] {μ : Measure Ω} [IsProbabilityMeasure μ] {ξ : ℕ → Ω → ℝ} {ν : Measure ℝ}

/-- Averages of a quantity computed from disjoint windows of a stream converge to its expectation. -/
theorem stream_average (h : Spec.Stream μ ξ ν) {G : (ℕ → ℝ) → ℝ} (hG : Measurable G) {m : ℕ}
    (hloc : ∀ γ γ' : ℕ → ℝ, (∀ n < m, γ n = γ' n) → G γ = G γ') {stride : ℕ} (hs : m ≤ stride)
    (hint : Integrable (fun ω => G fun n => ξ n ω) μ) (pos : ℕ) :
    ∀ᵐ ω ∂μ, Tendsto (fun R : ℕ => (∑ r ∈ Finset.range R, G fun n => ξ (pos + r * stride + n) ω) / R) atTop
      (𝓝 (∫ ω, G (fun n => ξ n ω) ∂μ)) := by
  have hident : ∀ p, IdentDistrib (fun ω => G fun n => ξ (p + n) ω) (fun ω => G fun n => ξ n ω) μ μ := by
    intro p
    have := ((h.shift p).identDistrib h).comp hG
    simp only [Function.comp_def] at this
    simpa only [add_comm] using this
  have hsub : ∀ (T : Set ℕ) (n : ℕ), n ∈ T → Measurable[⨆ i ∈ T, MeasurableSpace.comap (ξ i) inferInstance] (ξ n) := by
    intro T n hn
    refine Measurable.mono (comap_measurable (ξ n)) ?_ le_rfl
    exact le_iSup₂_of_le (f := fun i (_ : i ∈ T) => MeasurableSpace.comap (ξ i) inferInstance) n hn le_rfl
  have hwin : ∀ (T : Set ℕ) (p : ℕ), (∀ n < m, p + n ∈ T) →
      Measurable[⨆ i ∈ T, MeasurableSpace.comap (ξ i) inferInstance] fun ω => G fun n => ξ (p + n) ω := by
    intro T p hT
    have e : (fun ω => G fun n => ξ (p + n) ω) = fun ω => G fun n => if n < m then ξ (p + n) ω else 0 := by
      funext ω
      exact hloc _ _ fun n hn => (if_pos hn).symm
    rw [e]
    refine hG.comp (@measurable_pi_lambda _ _ _ (_) _ _ fun n => ?_)
    by_cases hn : n < m
    · simp only [if_pos hn]
      exact hsub T _ (hT n hn)
    · simp only [if_neg hn]
      exact @measurable_const _ _ _ (_) _
  have hind : ∀ {r r' : ℕ}, r < r' →
      IndepFun (fun ω => G fun n => ξ (pos + r * stride + n) ω) (fun ω => G fun n => ξ (pos + r' * stride + n) ω) μ := by
    intro r r' hr
    set S : Set ℕ := {n | n < pos + r' * stride} with hS
    have hi := indep_iSup_of_disjoint (m := fun n => MeasurableSpace.comap (ξ n) inferInstance) (μ := μ)
      (fun n => (h.1 n).comap_le) h.2.1 (disjoint_compl_right : Disjoint S Sᶜ)
    rw [IndepFun_iff_Indep]
    refine indep_of_indep_of_le_left (indep_of_indep_of_le_right hi ?_) ?_
    · refine Measurable.comap_le (hwin _ _ fun n _ => ?_)
      simp only [hS, Set.mem_compl_iff, Set.mem_setOf_eq, not_lt]
      omega
    · refine Measurable.comap_le (hwin _ _ fun n hn => ?_)
      have : (r + 1) * stride ≤ r' * stride := Nat.mul_le_mul_right _ hr
      rw [Nat.add_mul, one_mul] at this
      simp only [hS, Set.mem_setOf_eq]
      omega
  have hs := strong_law_ae_real (fun r ω => G fun n => ξ (pos + r * stride + n) ω)
    ((hident _).integrable_iff.2 hint) (fun k k' hne => by
      rcases lt_or_gt_of_ne hne with hk | hk
      · exact hind hk
      · exact (hind hk).symm) (fun k => (hident _).trans (hident _).symm)
  filter_upwards [hs] with ω hω
  rw [← (hident (pos + 0 * stride)).integral_eq]
  exact hω

/-- Averages over the `i`-th block of `R` values converge to the same limit as the averages over the first `R` values. -/
theorem block_average {x : ℕ → ℝ} {L : ℝ} (h : Tendsto (fun R : ℕ => (∑ r ∈ Finset.range R, x r) / R) atTop (𝓝 L)) (i : ℕ) :
    Tendsto (fun R : ℕ => (∑ r ∈ Finset.range R, x (i * R + r)) / R) atTop (𝓝 L) := by
  have hsum : ∀ R : ℕ, ∑ r ∈ Finset.range R, x (i * R + r) =
      ∑ r ∈ Finset.range ((i + 1) * R), x r - ∑ r ∈ Finset.range (i * R), x r := by
    intro R
    rw [add_mul, one_mul, Finset.sum_range_add]
    ring
  have h1 : Tendsto (fun R : ℕ => (i + 1 : ℝ) * ((∑ r ∈ Finset.range ((i + 1) * R), x r) / ((i + 1) * R : ℕ))) atTop
      (𝓝 ((i + 1) * L)) := by
    refine Tendsto.const_mul _ (h.comp ?_)
    exact tendsto_id.const_mul_atTop' (by omega)
  have h2 : Tendsto (fun R : ℕ => (i : ℝ) * ((∑ r ∈ Finset.range (i * R), x r) / (i * R : ℕ))) atTop (𝓝 (i * L)) := by
    rcases Nat.eq_zero_or_pos i with rfl | hi
    · simp
    · exact Tendsto.const_mul _ (h.comp (tendsto_id.const_mul_atTop' hi))
  have h3 := h1.sub h2
  rw [show (i + 1 : ℝ) * L - i * L = L by ring] at h3
  refine h3.congr' ?_
  filter_upwards [eventually_gt_atTop 0] with R hR
  have hR' : (R : ℝ) ≠ 0 := by exact_mod_cast hR.ne'
  rw [hsum, sub_div]
  push_cast
  rcases Nat.eq_zero_or_pos i with rfl | hi
  · simp
  · have : (i : ℝ) ≠ 0 := by exact_mod_cast hi.ne'
    have : (i + 1 : ℝ) ≠ 0 := by positivity
    field_simp

/-- A law with mean 0 and variance 1. -/
structure Spec.Standard (ν : Measure ℝ) : Prop where
  sq : MemLp (fun x : ℝ => x) 2 ν
  mean : ∫ x, x ∂ν = 0
  var : ∫ x, x ^ 2 ∂ν = 1

theorem Spec.Stream.memLp (h : Spec.Stream μ ξ ν) (hν : Spec.Standard ν) (n : ℕ) : MemLp (ξ n) 2 μ := by
  have := hν.sq
  rw [← h.2.2 n] at this
  exact (memLp_map_measure_iff (by fun_prop) (h.1 n).aemeasurable).1 this

theorem Spec.Stream.cov (h : Spec.Stream μ ξ ν) (hν : Spec.Standard ν) (m n : ℕ) :
    ∫ ω, ξ m ω * ξ n ω ∂μ = if m = n then 1 else 0 := by
  have hE : ∀ (k : ℕ) (f : ℝ → ℝ), Measurable f → ∫ ω, f (ξ k ω) ∂μ = ∫ x, f x ∂ν := by
    intro k f hf
    rw [← h.2.2 k, integral_map (h.1 k).aemeasurable hf.aestronglyMeasurable]
  by_cases hmn : m = n
  · subst hmn
    rw [if_pos rfl, ← hν.var, ← hE m (fun x => x ^ 2) (by fun_prop)]
    simp only [sq]
  · rw [if_neg hmn, (h.2.1.indepFun hmn).integral_fun_mul_eq_mul_integral (h.1 m).aestronglyMeasurable
      (h.1 n).aestronglyMeasurable, hE m (fun x => x) measurable_id, hν.mean, zero_mul]

end

/-! ### Windows of one realization -/

theorem generate_noise (lf : LowFreq) (g g' : ℕ → ℝ) (p p' : ℕ)
    (h : ∀ n < lf.compN1 * lf.compN2, g (p + n) = g' (p' + n)) :
    (lf.generate g p).1 = (lf.generate g' p').1 ∧ (lf.generate g p).2.1 = (lf.generate g' p').2.1 := by
  unfold LowFreq.generate
  by_cases hn : 0 < lf.compN1 ∧ 0 < lf.compN2
  · haveI : NeZero lf.compN1 := ⟨hn.1.ne'⟩
    haveI : NeZero lf.compN2 := ⟨hn.2.ne'⟩
    have e : (lfNoise g p : Box lf.compN1 lf.compN2 1 → ℝ) = lfNoise g' p' := by
      funext x
      unfold lfNoise
      refine h _ ?_
      have h1 := ZMod.val_lt x.1
      have h2 := ZMod.val_lt x.2.1
      calc x.1.val * lf.compN2 + x.2.1.val < x.1.val * lf.compN2 + lf.compN2 := by omega
        _ = (x.1.val + 1) * lf.compN2 := by ring
        _ ≤ lf.compN1 * lf.compN2 := Nat.mul_le_mul_right _ h1
    rw [dif_pos hn, dif_pos hn]
    simp only [e]
    cases extractPortion lf.userN1 lf.userN2 (boxMat (lfFull lf (lfNoise g' p' : Box lf.compN1 lf.compN2 1 → ℝ) 0)) with
    | error e => exact ⟨rfl, rfl⟩
    | ok u1 =>
      simp only
      cases extractPortion lf.userN1 lf.userN2 (boxMat (lfFull lf (lfNoise g' p' : Box lf.compN1 lf.compN2 1 → ℝ) 1)) with
      | error e => exact ⟨rfl, rfl⟩
      | ok u2 => exact ⟨rfl, rfl⟩
  · rw [dif_neg hn, dif_neg hn]
    exact ⟨rfl, rfl⟩

theorem realization_noise (lf : LowFreq) (g g' : ℕ → ℝ) (p p' : ℕ)
    (h : ∀ n < lf.compN1 * lf.compN2, g (p + n) = g' (p' + n)) : realization lf g p = realization lf g' p' := by
  obtain ⟨h1, h2⟩ := generate_noise lf g g' p p' h
  unfold realization
  revert h1 h2
  rcases lf.generate g p with ⟨a, b, c⟩
  rcases lf.generate g' p' with ⟨a', b', c'⟩
  intro h1 h2
  simp only at h1 h2
  subst h1 h2
  cases a <;> rfl

/-- The estimate of `compute_spectrum` after the realization that starts at position `p`. -/
def estimate (lf : LowFreq) (g : ℕ → ℝ) (p : ℕ) : Estimate :=
  match (lf.generate g p).2.1.computeSpectrum 1e-9 with
  | .ok e => e
  | .error _ => ([], [], [])

theorem estimate_noise (lf : LowFreq) (g g' : ℕ → ℝ) (p p' : ℕ)
    (h : ∀ n < lf.compN1 * lf.compN2, g (p + n) = g' (p' + n)) : estimate lf g p = estimate lf g' p' := by
  unfold estimate
  rw [(generate_noise lf g g' p p' h).2]

/-- Component of an estimate. -/
def Spec.line (c : Fin 2) (e : Estimate) : List ℝ := match c with | 0 => e.2.1 | 1 => e.2.2

theorem estimate_ok {cfg : LFConfig} (hp : cfg.Pos) {lf : LowFreq} (h : lfInit cfg = .ok lf) (ht : 1e-9 < 2 * Real.pi / lf.userL1)
    (g : ℕ → ℝ) (p : ℕ) :
    (lf.generate g p).2.1.computeSpectrum 1e-9 = .ok (estimate lf g p) ∧
    (estimate lf g p).1 = (List.range (lf.userN1 / 2)).map (fun j : ℕ => 2 * Real.pi / lf.userL1 * ((j : ℝ) + 1)) ∧
    (∀ c, (Spec.line c (estimate lf g p)).length = lf.userN1 / 2) ∧
    ∃ u, (∃ s, lf.generate g p = (.ok u, s)) ∧ ∀ (c : Fin 2) (a : ℕ), 0 < a → 2 * a < lf.userN1 →
      (Spec.line c (estimate lf g p)).getD (a - 1) 0 =
        lf.userL1 / ((lf.userN1 : ℝ) ^ 2 * lf.userN2 * (2 * Real.pi)) *
          ∑ j ∈ Finset.range lf.userN2, ∑ i ∈ Finset.range lf.userN1, ∑ i' ∈ Finset.range lf.userN1,
            (Spec.pick c u).entry i j * (Spec.pick c u).entry i' j *
              Real.cos (2 * Real.pi * a / lf.userN1 * ((i : ℝ) - i')) := by
  obtain ⟨u, F, hu, hs, hl, hv⟩ := spectrum_value hp h g p (by norm_num) ht
  have he : estimate lf g p = ((List.range (lf.userN1 / 2)).map (fun j : ℕ => 2 * Real.pi / lf.userL1 * ((j : ℝ) + 1)),
      F 0, F 1) := by
    unfold estimate
    rw [hs]
  have hc : ∀ c, Spec.line c (estimate lf g p) = F c := by
    intro c
    rw [he]
    clear * -
    fin_cases c <;> rfl
  refine ⟨by rw [hs, he], by rw [he], fun c => by rw [hc, hl], u, hu, fun c a h1 h2 => by rw [hc, hv c a h1 h2]⟩

theorem entry_measurable {cfg : LFConfig} (hp : cfg.Pos) {lf : LowFreq} (h : lfInit cfg = .ok lf) [NeZero lf.compN1]
    [NeZero lf.compN2] (c : Fin 2) (x : Box lf.compN1 lf.compN2 1) :
    Measurable fun γ : ℕ → ℝ => lfFull lf (fun z : Box lf.compN1 lf.compN2 1 => lfNoise γ 0 z) c x := by
  simp only [lfFull_imp]
  refine Finset.measurable_sum _ fun z _ => Measurable.const_mul ?_ _
  exact measurable_pi_apply _

theorem realization_measurable {cfg : LFConfig} (hp : cfg.Pos) {lf : LowFreq} (h : lfInit cfg = .ok lf) (c : Fin 2) :
    Measurable fun γ : ℕ → ℝ => (realization lf γ 0).pick c := by
  obtain ⟨⟨-, c1, -, c2⟩, -⟩ := C67_grid hp h
  haveI : NeZero lf.compN1 := ⟨by omega⟩
  haveI : NeZero lf.compN2 := ⟨by omega⟩
  obtain ⟨cc, hcc⟩ := lfInit_computeC h
  obtain ⟨lf0, e0, -, -, -, -, -, -, hN1, hN2, -⟩ := lfInit_ok hp hcc
  rw [h] at e0
  obtain rfl := Except.ok.inj e0
  have q1 : 0 < lf.userN1 := by rw [hN1]; positivity
  have q2 : 0 < lf.userN2 := by rw [hN2]; positivity
  choose u f hu _ hr _ using fun γ : ℕ → ℝ => realization_crops hp h γ 0 c
  simp only [hr, fun γ => (hu γ).var_eq q1 q2]
  have hm := fun x => entry_measurable hp h c x
  refine Measurable.sub (Measurable.div_const ?_ _) (Measurable.pow_const (Measurable.div_const ?_ _) _)
  · exact Finset.measurable_sum _ fun i _ => Finset.measurable_sum _ fun j _ => (hm _).pow_const _
  · exact Finset.measurable_sum _ fun i _ => Finset.measurable_sum _ fun j _ => hm _

theorem estimate_measurable {cfg : LFConfig} (hp : cfg.Pos) {lf : LowFreq} (h : lfInit cfg = .ok lf)
    (ht : 1e-9 < 2 * Real.pi / lf.userL1) (c : Fin 2) {a : ℕ} (h1 : 0 < a) (h2 : 2 * a < lf.userN1) :
    Measurable fun γ : ℕ → ℝ => (Spec.line c (estimate lf γ 0)).getD (a - 1) 0 := by
  obtain ⟨⟨-, c1, -, c2⟩, -⟩ := C67_grid hp h
  haveI : NeZero lf.compN1 := ⟨by omega⟩
  haveI : NeZero lf.compN2 := ⟨by omega⟩
  choose _ _ _ u hu hv using fun γ : ℕ → ℝ => estimate_ok hp h ht γ 0
  simp only [fun γ => hv γ c a h1 h2]
  refine Measurable.const_mul (Finset.measurable_sum _ fun j hj => Finset.measurable_sum _ fun i hi =>
    Finset.measurable_sum _ fun i' hi' => Measurable.mul_const ?_ _) _
  have e : ∀ {i : ℕ}, i ∈ Finset.range lf.userN1 → Measurable fun γ : ℕ → ℝ => (Spec.pick c (u γ)).entry i j := by
    intro i hi
    have : ∀ γ : ℕ → ℝ, (Spec.pick c (u γ)).entry i j = lfFull lf (fun z : Box lf.compN1 lf.compN2 1 => lfNoise γ 0 z) c
        (((lf.compN1 - lf.userN1) / 2 + i : ℕ), ((lf.compN2 - lf.userN2) / 2 + j : ℕ), 0) := by
      intro γ
      obtain ⟨s, hs⟩ := hu γ
      exact pick_entry hp h hs c (Finset.mem_range.1 hi) (Finset.mem_range.1 hj)
    simp only [this]
    exact entry_measurable hp h c _
  exact (e hi).mul (e hi')

/-! ### C112: the variance studies -/

theorem realization_expected {Ω : Type} [MeasurableSpace Ω] {μ : Measure Ω} {cfg : LFConfig} {lf : LowFreq}
    (r : LowFreqRegular cfg lf) (γ : ℕ → Ω → ℝ) (hL2 : ∀ m, MemLp (γ m) 2 μ)
    (hcov : ∀ m n, ∫ ω, γ m ω * γ n ω ∂μ = if m = n then 1 else 0) (pos : ℕ) (c : Fin 2) :
    (Integrable (fun ω => (realization lf (fun m => γ m ω) pos).pick c) μ ∧
      ∫ ω, (realization lf (fun m => γ m ω) pos).pick c ∂μ = Spec.cropVariance cfg lf c lf.userN1 lf.userN2) ∧
    (Integrable (fun ω => (realization lf (fun m => γ m ω) pos).pickFull c) μ ∧
      ∫ ω, (realization lf (fun m => γ m ω) pos).pickFull c ∂μ = Spec.cropVariance cfg lf c lf.compN1 lf.compN2) := by
  obtain ⟨⟨-, c1, -, c2⟩, -⟩ := C67_grid r.pos r.init
  haveI : NeZero lf.compN1 := ⟨by omega⟩
  haveI : NeZero lf.compN2 := ⟨by omega⟩
  obtain ⟨cc, hcc⟩ := lfInit_computeC r.init
  obtain ⟨lf0, e0, -, -, -, -, -, -, hN1, hN2, -⟩ := lfInit_ok r.pos hcc
  rw [r.init] at e0
  obtain rfl := Except.ok.inj e0
  have q1 : 0 < lf.userN1 := by rw [hN1]; positivity
  have q2 : 0 < lf.userN2 := by rw [hN2]; positivity
  choose u f hu hf hr hr' using fun ω => realization_crops r.pos r.init (fun m => γ m ω) pos c
  simp only [hr, hr']
  exact ⟨expected_var r γ hL2 hcov pos c q1 q2 hu, expected_var r γ hL2 hcov pos c (NeZero.pos _) (NeZero.pos _) hf⟩

theorem npMean_range {R : ℕ} (hR : 0 < R) (f : ℕ → ℝ) :
    npMean ((List.range R).map f) = fin ((∑ r ∈ Finset.range R, f r) / R) := by
  unfold npMean
  rw [if_neg]
  · rw [List.length_map, List.length_range, Finset.sum_range]
    congr 2
    rw [← List.sum_ofFn]
    congr 1
    rw [List.ofFn_eq_map, ← List.map_coe_finRange_eq_range, List.map_map]
    rfl
  · intro h
    rw [List.map_eq_nil_iff, List.range_eq_nil] at h
    omega

theorem lfInit_psi (cfg : LFConfig) (t : ℝ) :
    lfInit { cfg with psi := t } = (lfInit cfg).map fun lf => { lf with cfg := { cfg with psi := t } } := by
  unfold lfInit
  simp only [Bind.bind, Except.bind, Pure.pure, Except.pure, Except.map]
  rcases computeC cfg.sigma2 cfg.L2d cfg.zi with e | c
  · rfl
  · simp only
    rcases bufferSizes cfg.L2d (cfg.L1factor * cfg.L2d) (cfg.L2factor * cfg.L2d) (cfg.L1factor * cfg.L2d / (2 ^ cfg.exp1 : ℕ))
      (cfg.L2factor * cfg.L2d / (2 ^ cfg.exp2 : ℕ)) with e | ⟨b1, b2, b3, b4⟩
    · rfl
    · simp only
      rcases pyDiv b1 b3 with e | x
      · rfl
      · simp only
        rcases pyDiv b2 b4 with e | y
        · rfl
        · simp only
          by_cases h : isClose x y
          · rw [if_neg (not_not.2 h), if_neg (not_not.2 h)]
          · rw [if_pos h, if_pos h]
            rfl

theorem dictGet_set {α : Type} (d : List (ℝ × α)) (k : ℝ) (v : α) (k' : ℝ) :
    dictGet (dictSet d k v) k' = if k' = k then some v else dictGet d k' := by
  unfold dictSet dictGet
  by_cases h : d.any (fun p => decide (p.1 = k))
  · rw [if_pos h]
    induction d with
    | nil => simp at h
    | cons p d ih =>
      rw [List.map_cons, List.find?_cons, List.find?_cons]
      by_cases hp : p.1 = k
      · rw [if_pos hp]
        by_cases hk : k' = k
        · subst hk
          simp
        · have h1 : ¬ k = k' := fun e => hk e.symm
          have h2 : ¬ p.1 = k' := fun e => hk (e.symm.trans hp)
          simp only [h1, h2, decide_false]
          rw [if_neg hk]
          by_cases hd : d.any (fun p => decide (p.1 = k))
          · rw [ih hd, if_neg hk]
          · have : d.map (fun p => if p.1 = k then (k, v) else p) = d := by
              refine (List.map_congr_left fun q hq => ?_).trans (List.map_id d)
              rw [if_neg]
              · rfl
              · intro e
                exact hd (List.any_eq_true.2 ⟨q, hq, by simpa using e⟩)
            rw [this]
      · rw [if_neg hp]
        have hd : d.any (fun p => decide (p.1 = k)) := by
          rw [List.any_cons] at h
          simpa [hp] using h
        by_cases hk : p.1 = k'
        · have : ¬ k' = k := fun e => hp (hk.trans e)
          simp [hk, this]
        · simp only [hk, decide_false]
          exact ih hd
  · rw [if_neg h, List.find?_append]
    by_cases hk : k' = k
    · subst hk
      have : d.find? (fun p => decide (p.1 = k')) = none := by
        rw [List.find?_eq_none]
        intro q hq e
        exact h (List.any_eq_true.2 ⟨q, hq, e⟩)
      rw [this, if_pos rfl]
      simp
    · rw [if_neg hk]
      have h1 : ¬ k = k' := fun e => hk e.symm
      rcases d.find? (fun p => decide (p.1 = k')) with _ | q <;> simp [h1]

theorem dictSet_keys {α : Type} (d : List (ℝ × α)) (k : ℝ) (v : α) :
    (dictSet d k v).map Prod.fst = if k ∈ d.map Prod.fst then d.map Prod.fst else d.map Prod.fst ++ [k] := by
  have hany : d.any (fun p => decide (p.1 = k)) = true ↔ k ∈ d.map Prod.fst := by
    rw [List.any_eq_true, List.mem_map]
    simp only [decide_eq_true_eq]
  unfold dictSet
  by_cases h : k ∈ d.map Prod.fst
  · rw [if_pos (hany.2 h), if_pos h, List.map_map]
    refine List.map_congr_left fun q _ => ?_
    simp only [Function.comp]
    by_cases hq : q.1 = k
    · rw [if_pos hq, hq]
    · rw [if_neg hq]
  · rw [if_neg (fun e => h (hany.1 e)), if_neg h]
    simp

/-- Number of the last occurrence of an angle. -/
def lastIdx : List ℝ → ℝ → ℕ
  | [], _ => 0
  | _ :: xs, psi => if psi ∈ xs then lastIdx xs psi + 1 else 0

/-- Averages over the `R` realizations that start at position `p`. -/
def anisoRow (lf : LowFreq) (g : ℕ → ℝ) (R p : ℕ) : AnisoRow :=
  let rows := (List.range R).map fun r => realization lf g (p + r * (lf.compN1 * lf.compN2))
  ⟨npMean (rows.map VarRow.var1), npMean (rows.map VarRow.var2), npMean (rows.map VarRow.var1) + npMean (rows.map VarRow.var2)⟩

/-- The object of another angle. -/
def LowFreq.turn (lf : LowFreq) (cfg : LFConfig) (psi : ℝ) : LowFreq := { lf with cfg := anisoConfig cfg psi }

theorem lfInit_aniso {cfg : LFConfig} {lf : LowFreq} (h : lfInit cfg = .ok lf) (psi : ℝ) :
    lfInit (anisoConfig cfg psi) = .ok (lf.turn cfg psi) := by
  unfold anisoConfig
  rw [lfInit_psi, h]
  rfl

theorem lfInit_aniso' {cfg : LFConfig} {lf : LowFreq} {psi : ℝ} (h : lfInit (anisoConfig cfg psi) = .ok lf) :
    ∃ lf0, lfInit cfg = .ok lf0 := by
  unfold anisoConfig at h
  rw [lfInit_psi] at h
  rcases hc : lfInit cfg with e | lf0
  · rw [hc] at h
    simp [Except.map] at h
  · exact ⟨lf0, rfl⟩

theorem anisoFields_ok {cfg : LFConfig} (hp : cfg.Pos) {lf : LowFreq} (h : lfInit cfg = .ok lf) (g : ℕ → ℝ) (psis : List ℝ) :
    ∀ pos, anisoFields cfg g psis pos = .ok (pos + psis.length * (lf.compN1 * lf.compN2)) := by
  induction psis with
  | nil => intro pos; simp [anisoFields, pure, Except.pure]
  | cons psi rest ih =>
    intro pos
    have h1 := lfInit_aniso h psi
    obtain ⟨u1, u2, f1, f2, lf', hg, -⟩ := generate_spec (cfg := anisoConfig cfg psi) hp h1 g pos
    rw [anisoFields, h1]
    simp only
    rw [hg]
    simp only
    rw [ih]
    congr 1
    simp only [LowFreq.turn, List.length_cons]
    ring

theorem anisoLoop_ok {cfg : LFConfig} (hp : cfg.Pos) {lf : LowFreq} (h : lfInit cfg = .ok lf) (R : ℕ) {plot single : Bool}
    (hs : (plot && single) = false) (g : ℕ → ℝ) (psis : List ℝ) : ∀ pos d, ∃ d',
      anisoLoop cfg R plot single g psis pos d = .ok d' ∧
      ((d.map Prod.fst).Nodup → (d'.map Prod.fst).Nodup) ∧
      (∀ psi, psi ∈ d'.map Prod.fst ↔ psi ∈ d.map Prod.fst ∨ psi ∈ psis) ∧
      ∀ psi, dictGet d' psi = if psi ∈ psis then
        some (anisoRow (lf.turn cfg psi) g R (pos + lastIdx psis psi * (R * (lf.compN1 * lf.compN2)))) else dictGet d psi := by
  induction psis with
  | nil => intro pos d; exact ⟨d, rfl, id, by simp, by simp⟩
  | cons psi rest ih =>
    intro pos d
    have h1 := lfInit_aniso h psi
    have h2 : varianceLoop (lf.turn cfg psi) g R pos = _ :=
      varianceLoop_ok (cfg := anisoConfig cfg psi) hp h1 g R (lf.turn cfg psi).full (lf.turn cfg psi).u pos
    obtain ⟨d', e, hn, hm, hg⟩ := ih (pos + R * (lf.compN1 * lf.compN2)) (dictSet d psi (anisoRow (lf.turn cfg psi) g R pos))
    refine ⟨d', ?_, ?_, ?_, ?_⟩
    · rw [anisoLoop, h1]
      simp only
      rw [h2]
      simp only
      rw [if_neg (by rw [hs]; simp)]
      exact e
    · intro hd
      refine hn ?_
      rw [dictSet_keys]
      by_cases hk : psi ∈ d.map Prod.fst
      · rw [if_pos hk]; exact hd
      · rw [if_neg hk]
        exact hd.append (List.nodup_singleton _) (by simpa using hk)
    · intro psi'
      rw [hm, dictSet_keys, List.mem_cons]
      by_cases hk : psi ∈ d.map Prod.fst
      · rw [if_pos hk]
        constructor
        · rintro (h | h)
          · exact Or.inl h
          · exact Or.inr (Or.inr h)
        · rintro (h | rfl | h)
          · exact Or.inl h
          · exact Or.inl hk
          · exact Or.inr h
      · rw [if_neg hk, List.mem_append, List.mem_singleton]
        tauto
    · intro psi'
      rw [hg, lastIdx]
      by_cases hr : psi' ∈ rest
      · rw [if_pos hr, if_pos (List.mem_cons_of_mem _ hr), if_pos hr]
        congr 2
        ring
      · rw [if_neg hr, if_neg hr, dictGet_set]
        by_cases hk : psi' = psi
        · subst hk
          rw [if_pos rfl, if_pos (by simp)]
          simp
        · rw [if_neg hk, if_neg (by simp [hk, hr])]

/-- The result of `anisotropy_study`. -/
theorem anisotropyStudy_ok {cfg : LFConfig} (hp : cfg.Pos) {lf : LowFreq} (h : lfInit cfg = .ok lf) {psis : List ℝ}
    (hne : psis ≠ []) (R : ℕ) {plot : Bool} (hplot : plot = true → psis.length ≠ 1) (g : ℕ → ℝ) (pos : ℕ) :
    ∃ d, anisotropyStudy cfg psis R plot g pos = .ok d ∧ (d.map Prod.fst).Nodup ∧
      (∀ psi, psi ∈ d.map Prod.fst ↔ psi ∈ psis) ∧
      ∀ psi ∈ psis, dictGet d psi = some (anisoRow (lf.turn cfg psi) g R
        (pos + psis.length * (lf.compN1 * lf.compN2) + lastIdx psis psi * (R * (lf.compN1 * lf.compN2)))) := by
  have hs : (plot && decide (psis.length = 1)) = false := by
    cases plot
    · rfl
    · simpa using hplot rfl
  obtain ⟨d, e, hn, hm, hg⟩ := anisoLoop_ok hp h R hs g psis (pos + psis.length * (lf.compN1 * lf.compN2)) []
  refine ⟨d, ?_, hn (by simp), fun psi => by rw [hm]; simp, fun psi hpsi => by rw [hg, if_pos hpsi]⟩
  unfold anisotropyStudy
  rw [anisoFields_ok hp h]
  simp only
  rw [if_neg hne]
  exact e

theorem anisoRow_fin (lf : LowFreq) (g : ℕ → ℝ) {R : ℕ} (hR : 0 < R) (p : ℕ) (v : Fin 2 → ℝ)
    (hv : ∀ c, v c = (∑ r ∈ Finset.range R, (realization lf g (p + r * (lf.compN1 * lf.compN2))).pick c) / R) :
    anisoRow lf g R p = ⟨fin (v 0), fin (v 1), fin (v 0 + v 1)⟩ := by
  unfold anisoRow
  simp only [List.map_map]
  have h0 : npMean ((List.range R).map (VarRow.var1 ∘ fun r => realization lf g (p + r * (lf.compN1 * lf.compN2)))) = fin (v 0) := by
    rw [npMean_range hR, hv]
    rfl
  have h1 : npMean ((List.range R).map (VarRow.var2 ∘ fun r => realization lf g (p + r * (lf.compN1 * lf.compN2)))) = fin (v 1) := by
    rw [npMean_range hR, hv]
    rfl
  rw [h0, h1]
  rfl

/-- The configuration of one angle, given in degrees. -/
def Spec.atDegrees (cfg : LFConfig) (deg : ℝ) : LFConfig := { cfg with psi := deg * (Real.pi / 180) }

theorem aniso_averages {Ω : Type} [MeasurableSpace Ω] {μ : Measure Ω} {cfg : LFConfig} {psis : List ℝ} (hne : psis ≠ [])
    (hreg : ∀ psi ∈ psis, ∃ lf, LowFreqRegular (anisoConfig cfg psi) lf) {R : ℕ} (hR : 0 < R) {plot : Bool}
    (hplot : plot = true → psis.length ≠ 1) (γ : ℕ → Ω → ℝ) (hL2 : ∀ m, MemLp (γ m) 2 μ)
    (hcov : ∀ m n, ∫ ω, γ m ω * γ n ω ∂μ = if m = n then 1 else 0) (pos : ℕ) :
    ∃ d : Ω → List (ℝ × AnisoRow), (∀ ω, anisotropyStudy cfg psis R plot (fun m => γ m ω) pos = .ok (d ω)) ∧
      (∀ ω, ((d ω).map Prod.fst).Nodup ∧ ∀ psi, psi ∈ (d ω).map Prod.fst ↔ psi ∈ psis) ∧
      ∀ psi ∈ psis, ∀ lf, lfInit (anisoConfig cfg psi) = .ok lf → ∃ v : Fin 2 → Ω → ℝ,
        (∀ ω, dictGet (d ω) psi = some ⟨fin (v 0 ω), fin (v 1 ω), fin (v 0 ω + v 1 ω)⟩) ∧
        ∀ c, Integrable (v c) μ ∧
          ∫ ω, v c ω ∂μ = Spec.cropVariance (anisoConfig cfg psi) lf c lf.userN1 lf.userN2 := by
  obtain ⟨psi0, hpsi0⟩ := List.exists_mem_of_ne_nil _ hne
  obtain ⟨l0, r0⟩ := hreg psi0 hpsi0
  obtain ⟨lf0, h0⟩ := lfInit_aniso' r0.init
  have hp : cfg.Pos := r0.pos
  choose d hd hn hm hg using fun ω => anisotropyStudy_ok hp h0 hne R hplot (fun m => γ m ω) pos
  refine ⟨d, hd, fun ω => ⟨hn ω, hm ω⟩, fun psi hpsi lf hlf => ?_⟩
  obtain ⟨l1, r1⟩ := hreg psi hpsi
  have e1 := lfInit_aniso h0 psi
  have e2 := r1.init
  rw [e1] at hlf e2
  obtain rfl := Except.ok.inj hlf
  obtain rfl := Except.ok.inj e2
  set P := pos + psis.length * (lf0.compN1 * lf0.compN2) + lastIdx psis psi * (R * (lf0.compN1 * lf0.compN2)) with hP
  have hE := fun (r : ℕ) (c : Fin 2) =>
    (realization_expected r1 γ hL2 hcov (P + r * (lf0.compN1 * lf0.compN2)) c).1
  refine ⟨fun c ω => (∑ r ∈ Finset.range R, (realization (lf0.turn cfg psi) (fun m => γ m ω)
    (P + r * (lf0.compN1 * lf0.compN2))).pick c) / R, fun ω => ?_, fun c => ⟨?_, ?_⟩⟩
  · rw [hg ω psi hpsi, anisoRow_fin _ _ hR _ _ fun c => rfl]
    rfl
  · exact (integrable_finsetSum _ fun r _ => (hE r c).1).div_const _
  · rw [integral_div, integral_finsetSum _ fun r _ => (hE r c).1]
    simp only [fun r => (hE r c).2]
    rw [Finset.sum_const, Finset.card_range, nsmul_eq_mul]
    have : (R : ℝ) ≠ 0 := by exact_mod_cast hR.ne'
    field_simp

/-- **C112** `anisotropy_study` returns one entry per angle, whose total is the sum of the two averages; for noise values with
mean product 0 and mean square 1 the expected averages are those of one realization, for every number of realizations. -/
theorem C112_anisotropy {Ω : Type} [MeasurableSpace Ω] {μ : Measure Ω} {cfg : LFConfig} {psis : List ℝ} (hne : psis ≠ [])
    (hreg : ∀ psi ∈ psis, ∃ lf, LowFreqRegular (Spec.atDegrees cfg psi) lf) {R : ℕ} (hR : 0 < R) {plot : Bool}
    (hplot : plot = true → psis.length ≠ 1) (γ : ℕ → Ω → ℝ) (hL2 : ∀ m, MemLp (γ m) 2 μ)
    (hcov : ∀ m n, ∫ ω, γ m ω * γ n ω ∂μ = if m = n then 1 else 0) (pos : ℕ) :
    ∃ d : Ω → List (ℝ × AnisoRow), (∀ ω, anisotropyStudy cfg psis R plot (fun m => γ m ω) pos = .ok (d ω)) ∧
      (∀ ω, ((d ω).map Prod.fst).Nodup ∧ ∀ psi, psi ∈ (d ω).map Prod.fst ↔ psi ∈ psis) ∧
      ∀ psi ∈ psis, ∀ lf, lfInit (Spec.atDegrees cfg psi) = .ok lf → ∃ v : Fin 2 → Ω → ℝ,
        (∀ ω, dictGet (d ω) psi = some ⟨fin (v 0 ω), fin (v 1 ω), fin (v 0 ω + v 1 ω)⟩) ∧
        ∀ c, Integrable (v c) μ ∧
          ∫ ω, v c ω ∂μ = Spec.cropVariance (Spec.atDegrees cfg psi) lf c lf.userN1 lf.userN2 := 
  aniso_averages hne hreg hR hplot γ hL2 hcov pos

theorem realization_average {Ω : Type} [MeasurableSpace Ω] {μ : Measure Ω} [IsProbabilityMeasure μ] {ξ : ℕ → Ω → ℝ}
    {ν : Measure ℝ} (h : Spec.Stream μ ξ ν) (hν : Spec.Standard ν) {cfg : LFConfig} {lf : LowFreq} (r : LowFreqRegular cfg lf)
    (P : ℕ) (c : Fin 2) :
    ∀ᵐ ω ∂μ, Tendsto (fun R : ℕ => (∑ r ∈ Finset.range R,
      (realization lf (fun n => ξ n ω) (P + r * (lf.compN1 * lf.compN2))).pick c) / R) atTop
      (𝓝 (Spec.cropVariance cfg lf c lf.userN1 lf.userN2)) := by
  have hE := (realization_expected r ξ (h.memLp hν) (h.cov hν) 0 c).1
  have hloc : ∀ γ γ' : ℕ → ℝ, (∀ n < lf.compN1 * lf.compN2, γ n = γ' n) →
      (realization lf γ 0).pick c = (realization lf γ' 0).pick c := by
    intro γ γ' hγ
    rw [realization_noise lf γ γ' 0 0 fun n hn => by rw [zero_add]; exact hγ n hn]
  have := stream_average h (realization_measurable r.pos r.init c) hloc le_rfl hE.1 P
  filter_upwards [this] with ω hω
  rw [hE.2] at hω
  have e : ∀ p, realization lf (fun n => ξ (p + n) ω) 0 = realization lf (fun n => ξ n ω) p := fun p =>
    realization_noise lf _ _ _ _ fun n _ => by rw [zero_add]
  simp only [e] at hω
  exact hω

theorem aniso_converges {Ω : Type} [MeasurableSpace Ω] {μ : Measure Ω} [IsProbabilityMeasure μ] {ξ : ℕ → Ω → ℝ} {ν : Measure ℝ}
    (h : Spec.Stream μ ξ ν) (hν : Spec.Standard ν) {cfg : LFConfig} {psis : List ℝ}
    (hreg : ∀ psi ∈ psis, ∃ lf, LowFreqRegular (anisoConfig cfg psi) lf) {plot : Bool}
    (hplot : plot = true → psis.length ≠ 1) (pos : ℕ) {psi : ℝ} (hpsi : psi ∈ psis) {lf : LowFreq}
    (hlf : lfInit (anisoConfig cfg psi) = .ok lf) :
    ∀ᵐ ω ∂μ, ∃ (d : ℕ → List (ℝ × AnisoRow)) (v : ℕ → Fin 2 → ℝ),
      (∀ R > 0, anisotropyStudy cfg psis R plot (fun m => ξ m ω) pos = .ok (d R)) ∧
      (∀ R > 0, dictGet (d R) psi = some ⟨fin (v R 0), fin (v R 1), fin (v R 0 + v R 1)⟩) ∧
      ∀ c, Tendsto (fun R => v R c) atTop (𝓝 (Spec.cropVariance (anisoConfig cfg psi) lf c lf.userN1 lf.userN2)) := by
  obtain ⟨l1, r1⟩ := hreg psi hpsi
  obtain ⟨lf0, h0⟩ := lfInit_aniso' r1.init
  have hp : cfg.Pos := r1.pos
  have e1 := lfInit_aniso h0 psi
  have e2 := r1.init
  rw [e1] at hlf e2
  obtain rfl := Except.ok.inj hlf
  obtain rfl := Except.ok.inj e2
  set m := lf0.compN1 * lf0.compN2 with hm
  set P := pos + psis.length * m with hP
  have hlaw := fun c : Fin 2 => realization_average h hν r1 P c
  filter_upwards [ae_all_iff.2 hlaw] with ω hω
  have hd := fun R => anisotropyStudy_ok hp h0 (List.ne_nil_of_mem hpsi) R hplot (fun m => ξ m ω) pos
  choose d hd _ _ hg using hd
  refine ⟨d, fun R c => (∑ r ∈ Finset.range R, (realization (lf0.turn cfg psi) (fun n => ξ n ω)
    (P + (lastIdx psis psi * R + r) * m)).pick c) / R, fun R _ => hd R, fun R hR => ?_, fun c => ?_⟩
  · rw [hg R psi hpsi]
    refine congrArg some (anisoRow_fin _ _ hR _ (fun c => (∑ r ∈ Finset.range R, (realization (lf0.turn cfg psi)
      (fun n => ξ n ω) (P + (lastIdx psis psi * R + r) * m)).pick c) / R) fun c => ?_)
    refine congrArg (· / (R : ℝ)) (Finset.sum_congr rfl fun r _ => ?_)
    congr 2
    change P + (lastIdx psis psi * R + r) * m = P + lastIdx psis psi * (R * m) + r * m
    ring
  · exact block_average (x := fun r => (realization (lf0.turn cfg psi) (fun n => ξ n ω) (P + r * m)).pick c) (hω c) _

/-- **C112** With independent noise of mean 0 and variance 1 the averages of `anisotropy_study` converge to these expected values
with probability one as the number of realizations grows. -/
theorem C112_converges {Ω : Type} [MeasurableSpace Ω] {μ : Measure Ω} [IsProbabilityMeasure μ] {ξ : ℕ → Ω → ℝ} {ν : Measure ℝ}
    (h : Spec.Stream μ ξ ν) (hν : Spec.Standard ν) {cfg : LFConfig} {psis : List ℝ}
    (hreg : ∀ psi ∈ psis, ∃ lf, LowFreqRegular (Spec.atDegrees cfg psi) lf) {plot : Bool}
    (hplot : plot = true → psis.length ≠ 1) (pos : ℕ) {psi : ℝ} (hpsi : psi ∈ psis) {lf : LowFreq}
    (hlf : lfInit (Spec.atDegrees cfg psi) = .ok lf) :
    ∀ᵐ ω ∂μ, ∃ (d : ℕ → List (ℝ × AnisoRow)) (v : ℕ → Fin 2 → ℝ),
      (∀ R > 0, anisotropyStudy cfg psis R plot (fun m => ξ m ω) pos = .ok (d R)) ∧
      (∀ R > 0, dictGet (d R) psi = some ⟨fin (v R 0), fin (v R 1), fin (v R 0 + v R 1)⟩) ∧
      ∀ c, Tendsto (fun R => v R c) atTop (𝓝 (Spec.cropVariance (Spec.atDegrees cfg psi) lf c lf.userN1 lf.userN2)) :=
  aniso_converges h hν hreg hplot pos hpsi hlf

/-- **C112** Without realizations `anisotropy_study` reports NaN for every angle, an empty list of angles raises `ValueError`, and
a single angle raises `TypeError` when plotting. -/
theorem C112_edge {cfg : LFConfig} (hp : cfg.Pos) {lf : LowFreq} (h : lfInit cfg = .ok lf) (g : ℕ → ℝ) (pos R : ℕ) (plot : Bool)
    (psi : ℝ) {psis : List ℝ} (hne : psis ≠ []) :
    anisotropyStudy cfg [] R plot g pos = .error .valueError ∧
    anisotropyStudy cfg [psi] R true g pos = .error .typeError ∧
    ∃ d, anisotropyStudy cfg psis 0 false g pos = .ok d ∧ ∀ x ∈ psis, dictGet d x = some ⟨nan, nan, nan⟩ := by
  refine ⟨rfl, ?_, ?_⟩
  · unfold anisotropyStudy
    rw [anisoFields_ok hp h]
    simp only [List.length_singleton, decide_true]
    rw [if_neg (by simp), anisoLoop, lfInit_aniso h psi]
    simp only
    have h2 : varianceLoop (lf.turn cfg psi) g R (pos + 1 * (lf.compN1 * lf.compN2)) = _ :=
      varianceLoop_ok (cfg := anisoConfig cfg psi) hp (lfInit_aniso h psi) g R (lf.turn cfg psi).full (lf.turn cfg psi).u _
    rw [h2]
    rfl
  · obtain ⟨d, hd, -, -, hg⟩ := anisotropyStudy_ok hp h hne 0 (plot := false) (by simp) g pos
    refine ⟨d, hd, fun x hx => ?_⟩
    rw [hg x hx]
    rfl

/-- Configuration of one domain. -/
def Spec.domain (cfg : LFConfig) (D : (ℝ × ℝ) × (ℕ × ℕ)) : LFConfig :=
  { cfg with L1factor := D.1.1, L2factor := D.1.2, exp1 := D.2.1, exp2 := D.2.2 }

theorem rectRow_fin (l : LowFreq) (g : ℕ → ℝ) {R : ℕ} (hR : 0 < R) (p : ℕ) (v w : Fin 2 → ℝ)
    (hv : ∀ c, v c = (∑ r ∈ Finset.range R, (realization l g (p + r * (l.compN1 * l.compN2))).pick c) / R)
    (hw : ∀ c, w c = (∑ r ∈ Finset.range R, (realization l g (p + r * (l.compN1 * l.compN2))).pickFull c) / R) :
    rectRow ((List.range R).map fun r => realization l g (p + r * (l.compN1 * l.compN2))) =
      ⟨fin (v 0), fin (v 1), fin (v 0 + v 1), fin (w 0), fin (w 1), fin (w 0 + w 1)⟩ := by
  unfold rectRow
  simp only [List.map_map, npMean_range hR, Function.comp, hv, hw, ← add_div, ← Finset.sum_add_distrib]
  rfl

/-- Expected values of the averages shown for one domain. -/
structure Spec.DomainMeans {Ω : Type} [MeasurableSpace Ω] (μ : Measure Ω) (cfg : LFConfig) (row : Ω → RectRow) : Prop where
  out : ∃ (lf : LowFreq) (v w : Fin 2 → Ω → ℝ), lfInit cfg = .ok lf ∧
    (∀ ω, row ω = ⟨fin (v 0 ω), fin (v 1 ω), fin (v 0 ω + v 1 ω), fin (w 0 ω), fin (w 1 ω), fin (w 0 ω + w 1 ω)⟩) ∧
    ∀ c, Integrable (v c) μ ∧ Integrable (w c) μ ∧
      ∫ ω, v c ω ∂μ = Spec.cropVariance cfg lf c lf.userN1 lf.userN2 ∧
      ∫ ω, w c ω ∂μ = ∑ p ∈ Finset.range lf.compN1, ∑ q ∈ Finset.range lf.compN2, Spec.modeVariance cfg lf c p q

theorem rectLoop_means {Ω : Type} [MeasurableSpace Ω] {μ : Measure Ω} {cfg : LFConfig} {R : ℕ} (hR : 0 < R) (γ : ℕ → Ω → ℝ)
    (hL2 : ∀ m, MemLp (γ m) 2 μ) (hcov : ∀ m n, ∫ ω, γ m ω * γ n ω ∂μ = if m = n then 1 else 0)
    (ds : List ((ℝ × ℝ) × (ℕ × ℕ))) : ∀ (_ : ∀ D ∈ ds, ∃ lf, LowFreqRegular (Spec.domain cfg D) lf) (pos : ℕ),
    ∃ rows : List (Ω → RectRow), (∀ ω, rectLoop cfg R (fun m => γ m ω) ds pos = .ok (rows.map fun f => f ω)) ∧
      List.Forall₂ (fun D row => Spec.DomainMeans μ (Spec.domain cfg D) row) ds rows := by
  induction ds with
  | nil => exact fun _ pos => ⟨[], fun ω => rfl, List.Forall₂.nil⟩
  | cons D ds ih =>
    intro hreg pos
    obtain ⟨lf, r⟩ := hreg D (by simp)
    obtain ⟨rows, hrows, hall⟩ := ih (fun D' hD => hreg D' (by simp [hD])) (pos + R * (lf.compN1 * lf.compN2))
    have h2 : ∀ g, varianceLoop lf g R pos = _ := fun g => varianceLoop_ok r.pos r.init g R lf.full lf.u pos
    have hE := fun (k : ℕ) (c : Fin 2) => realization_expected r γ hL2 hcov (pos + k * (lf.compN1 * lf.compN2)) c
    have hRR : (R : ℝ) ≠ 0 := by exact_mod_cast hR.ne'
    refine ⟨(fun ω => rectRow ((List.range R).map fun k => realization lf (fun m => γ m ω)
      (pos + k * (lf.compN1 * lf.compN2)))) :: rows, fun ω => ?_, List.Forall₂.cons ⟨lf, fun c ω => (∑ k ∈ Finset.range R,
        (realization lf (fun m => γ m ω) (pos + k * (lf.compN1 * lf.compN2))).pick c) / R, fun c ω => (∑ k ∈ Finset.range R,
        (realization lf (fun m => γ m ω) (pos + k * (lf.compN1 * lf.compN2))).pickFull c) / R, r.init, fun ω => ?_,
        fun c => ⟨?_, ?_, ?_, ?_⟩⟩ hall⟩
    · obtain ⟨⟨l1, l2⟩, e1, e2⟩ := D
      have hi := r.init
      unfold Spec.domain at hi
      rw [rectLoop]
      simp only at hi
      rw [hi]
      simp only
      rw [h2]
      simp only
      rw [hrows]
      rfl
    · exact rectRow_fin lf _ hR pos _ _ (fun c => rfl) (fun c => rfl)
    · exact (integrable_finsetSum _ fun k _ => (hE k c).1.1).div_const _
    · exact (integrable_finsetSum _ fun k _ => (hE k c).2.1).div_const _
    · rw [integral_div, integral_finsetSum _ fun k _ => (hE k c).1.1]
      simp only [fun k => (hE k c).1.2]
      rw [Finset.sum_const, Finset.card_range, nsmul_eq_mul]
      field_simp
    · rw [integral_div, integral_finsetSum _ fun k _ => (hE k c).2.1]
      simp only [fun k => (hE k c).2.2, cropVariance_full r c]
      rw [Finset.sum_const, Finset.card_range, nsmul_eq_mul, mul_div_cancel_left₀ _ hRR]

/-- The fifty domains of `length_AND_grid_size_study`: squares of 2, 4, ..., 20 reference lengths on `2^7`, ..., `2^11` points per
direction, the length varying faster. -/
def Spec.gridSweep : List ((ℝ × ℝ) × (ℕ × ℕ)) :=
  (List.range 50).map fun i : ℕ => (((2 * (i % 10 + 1 : ℕ) : ℝ), (2 * (i % 10 + 1 : ℕ) : ℝ)), (7 + i / 10, 7 + i / 10))

/-- The ten domains of `rectangular_domain_study`: lengths in reference lengths, binary logarithms of the numbers of points. -/
def Spec.rectangles : List ((ℝ × ℝ) × (ℕ × ℕ)) :=
  List.zip [(16, 8), (16, 4), (8, 4), (8, 2), (4, 2), (2, 4), (2, 8), (4, 8), (4, 16), (8, 16)]
    [(11, 10), (11, 9), (11, 10), (12, 10), (11, 10), (10, 11), (10, 12), (10, 11), (10, 12), (10, 11)]

theorem gridDomains_eq : gridDomains = Spec.gridSweep := by
  simp only [gridDomains, Spec.gridSweep, List.range, List.range.loop, List.map_cons, List.map_nil, List.flatMap_cons,
    List.flatMap_nil, List.cons_append, List.nil_append, List.append_nil]
  norm_num

theorem rectDomains_eq : rectDomains = Spec.rectangles := rfl

/-- **C112** The averages printed by `rectangular_domain_study` and `length_AND_grid_size_study`: one row per domain, the totals
are sums, and the expected averages are those of one realization. -/
theorem C112_domains {Ω : Type} [MeasurableSpace Ω] {μ : Measure Ω} {cfg : LFConfig} {R : ℕ} (hR : 0 < R) (γ : ℕ → Ω → ℝ)
    (hL2 : ∀ m, MemLp (γ m) 2 μ) (hcov : ∀ m n, ∫ ω, γ m ω * γ n ω ∂μ = if m = n then 1 else 0) (pos : ℕ)
    {study : LFConfig → ℕ → (ℕ → ℝ) → ℕ → Except PyErr (List RectRow)} {ds : List ((ℝ × ℝ) × (ℕ × ℕ))}
    (hs : (study = rectangularStudy ∧ ds = Spec.rectangles) ∨ (study = lengthGridStudy ∧ ds = Spec.gridSweep))
    (hreg : ∀ D ∈ ds, ∃ lf, LowFreqRegular (Spec.domain cfg D) lf) :
    ∃ rows : List (Ω → RectRow), (∀ ω, study cfg R (fun m => γ m ω) pos = .ok (rows.map fun f => f ω)) ∧
      List.Forall₂ (fun D row => Spec.DomainMeans μ (Spec.domain cfg D) row) ds rows := by
  obtain ⟨rows, h1, h2⟩ := rectLoop_means hR γ hL2 hcov ds hreg pos
  refine ⟨rows, ?_, h2⟩
  rcases hs with ⟨rfl, rfl⟩ | ⟨rfl, rfl⟩
  · exact h1
  · rw [← gridDomains_eq] at h1
    exact h1

/-! ### C113: `recreate_fig2` -/

/-- Expected value of the estimate at the `k`-th reported wavenumber, see C111. -/
def Spec.expectedSpectrum (cfg : LFConfig) (lf : LowFreq) (c : Fin 2) (k : ℕ) : ℝ :=
  lf.userL1 / (2 * Real.pi) *
    ∑ p ∈ Finset.range lf.compN1, ∑ q ∈ Finset.range lf.compN2, Spec.modeVariance cfg lf c p q *
      ((Spec.fejer lf.userN1 (Spec.waveNumber lf.compN1 lf.compDx p * lf.compDx - 2 * Real.pi * k / lf.userN1) +
        Spec.fejer lf.userN1 (Spec.waveNumber lf.compN1 lf.compDx p * lf.compDx + 2 * Real.pi * k / lf.userN1)) / 2)

theorem estimate_expected {Ω : Type} [MeasurableSpace Ω] {μ : Measure Ω} {cfg : LFConfig} {lf : LowFreq}
    (r : LowFreqRegular cfg lf) (ht : 1e-9 < 2 * Real.pi / lf.userL1) (γ : ℕ → Ω → ℝ) (hL2 : ∀ m, MemLp (γ m) 2 μ)
    (hcov : ∀ m n, ∫ ω, γ m ω * γ n ω ∂μ = if m = n then 1 else 0) (pos : ℕ) (c : Fin 2) {k : ℕ} (h1 : 0 < k)
    (h2 : 2 * k < lf.userN1) :
    Integrable (fun ω => (Spec.line c (estimate lf (fun m => γ m ω) pos)).getD (k - 1) 0) μ ∧
      ∫ ω, (Spec.line c (estimate lf (fun m => γ m ω) pos)).getD (k - 1) 0 ∂μ = Spec.expectedSpectrum cfg lf c k := by
  obtain ⟨ks, F, hF, -, hE⟩ := C111_expected r γ hL2 hcov pos (kTol := 1e-9) (by norm_num) ht
  have : ∀ ω, Spec.line c (estimate lf (fun m => γ m ω) pos) = F c ω := by
    intro ω
    unfold estimate
    rw [hF ω]
    clear * -
    fin_cases c <;> rfl
  simp only [this]
  exact hE c k h1 h2

theorem estimate_average {Ω : Type} [MeasurableSpace Ω] {μ : Measure Ω} [IsProbabilityMeasure μ] {ξ : ℕ → Ω → ℝ}
    {ν : Measure ℝ} (h : Spec.Stream μ ξ ν) (hν : Spec.Standard ν) {cfg : LFConfig} {lf : LowFreq} (r : LowFreqRegular cfg lf)
    (ht : 1e-9 < 2 * Real.pi / lf.userL1) (P : ℕ) {stride : ℕ} (hs : lf.compN1 * lf.compN2 ≤ stride) (c : Fin 2) {k : ℕ}
    (h1 : 0 < k) (h2 : 2 * k < lf.userN1) :
    ∀ᵐ ω ∂μ, Tendsto (fun R : ℕ => (∑ r ∈ Finset.range R,
      (Spec.line c (estimate lf (fun n => ξ n ω) (P + r * stride))).getD (k - 1) 0) / R) atTop
      (𝓝 (Spec.expectedSpectrum cfg lf c k)) := by
  have hE := estimate_expected r ht ξ (h.memLp hν) (h.cov hν) 0 c h1 h2
  have hloc : ∀ γ γ' : ℕ → ℝ, (∀ n < lf.compN1 * lf.compN2, γ n = γ' n) →
      (Spec.line c (estimate lf γ 0)).getD (k - 1) 0 = (Spec.line c (estimate lf γ' 0)).getD (k - 1) 0 := by
    intro γ γ' hγ
    rw [estimate_noise lf γ γ' 0 0 fun n hn => by rw [zero_add]; exact hγ n hn]
  have := stream_average h (estimate_measurable r.pos r.init ht c h1 h2) hloc hs hE.1 P
  filter_upwards [this] with ω hω
  rw [hE.2] at hω
  have e : ∀ p, estimate lf (fun n => ξ (p + n) ω) 0 = estimate lf (fun n => ξ n ω) p := fun p =>
    estimate_noise lf _ _ _ _ fun n _ => by rw [zero_add]
  simp only [e] at hω
  exact hω

theorem fig2Loop_ok {ca cb : LFConfig} (pa : ca.Pos) (pb : cb.Pos) {a b : LowFreq} (ha : lfInit ca = .ok a)
    (hb : lfInit cb = .ok b) (ta : 1e-9 < 2 * Real.pi / a.userL1) (tb : 1e-9 < 2 * Real.pi / b.userL1) (g : ℕ → ℝ) (R : ℕ) :
    ∀ (x y z w : Option (Mat × Mat)) (pos : ℕ),
      fig2Loop { a with full := x, u := y } { b with full := z, u := w } g R pos =
        .ok ((List.range R).map fun r =>
          (estimate a g (pos + r * (a.compN1 * a.compN2 + b.compN1 * b.compN2)),
           estimate b g (pos + a.compN1 * a.compN2 + r * (a.compN1 * a.compN2 + b.compN1 * b.compN2)))) := by
  induction R with
  | zero => intro x y z w pos; rfl
  | succ R ih =>
    intro x y z w pos
    obtain ⟨u1, u2, f1, f2, a', ga, rfl, -⟩ := generate_spec pa ha g pos
    obtain ⟨v1, v2, h1, h2, b', gb, rfl, -⟩ := generate_spec pb hb g (pos + a.compN1 * a.compN2)
    have ea := (estimate_ok pa ha ta g pos).1
    have eb := (estimate_ok pb hb tb g (pos + a.compN1 * a.compN2)).1
    rw [ga] at ea
    rw [gb] at eb
    rw [fig2Loop, generate_again a x y ga]
    simp only
    rw [generate_again b z w gb]
    simp only at ea eb ⊢
    rw [ea, eb]
    simp only
    rw [ih]
    simp only [pure, Except.pure]
    rw [List.range_succ_eq_map, List.map_cons, List.map_map, zero_mul, add_zero, add_zero]
    congr 2
    refine List.map_congr_left fun r _ => ?_
    simp only [Function.comp, Nat.succ_mul]
    congr 2 <;> omega

/-- Ordinates of a curve. -/
def Fig2Curve.y (c : Fin 2) (C : Fig2Curve) : List ℝ := match c with | 0 => C.y1 | 1 => C.y2

theorem columnMean_range {R n : ℕ} (hR : 0 < R) (f : ℕ → List ℝ) (hf : ∀ r, (f r).length = n) :
    columnMean ((List.range R).map f) =
      (List.range n).map fun j => (∑ r ∈ Finset.range R, (f r).getD j 0) / R := by
  have h0 : (((List.range R).map f).headD []).length = n := by
    obtain ⟨m, rfl⟩ := Nat.exists_eq_succ_of_ne_zero hR.ne'
    rw [List.range_succ_eq_map]
    exact hf 0
  unfold columnMean
  rw [h0]
  refine List.map_congr_left fun j _ => ?_
  rw [List.map_map, List.length_map, List.length_range]
  congr 1

theorem fig2Curve_ok {R n : ℕ} (hR : 0 < R) (hn : 0 < n) (L2d s : ℝ) (E : ℕ → Estimate)
    (hks : ∀ r, (E r).1 = (List.range n).map (fun j : ℕ => s * ((j : ℝ) + 1)))
    (hlen : ∀ r c, (Spec.line c (E r)).length = n) :
    ∃ C, fig2Curve L2d ((List.range R).map E) = .ok C ∧
      C.x = (List.range n).map (fun j : ℕ => s * ((j : ℝ) + 1) * L2d) ∧
      ∀ c, C.y c = (List.range n).map (fun j : ℕ => s * ((j : ℝ) + 1) *
        ((∑ r ∈ Finset.range R, (Spec.line c (E r)).getD j 0) / R)) := by
  have h0 : (((List.range R).map E).headD ([], [], [])).1 = (List.range n).map (fun j : ℕ => s * ((j : ℝ) + 1)) := by
    obtain ⟨m, rfl⟩ := Nat.exists_eq_succ_of_ne_zero hR.ne'
    rw [List.range_succ_eq_map]
    exact hks 0
  unfold fig2Curve
  simp only [h0, List.map_map]
  rw [if_neg (by
    intro h
    rw [List.map_eq_nil_iff, List.range_eq_nil] at h
    omega)]
  refine ⟨_, rfl, ?_, fun c => ?_⟩
  · rfl
  · have h1 := columnMean_range hR (fun r => Spec.line c (E r)) (fun r => hlen r c)
    have hz : ∀ (f g : ℕ → ℝ), List.zipWith (fun k f => k * f) ((List.range n).map f) ((List.range n).map g) =
        (List.range n).map fun j => f j * g j := by
      intro f g
      rw [List.zipWith_map, List.zipWith_self]
    rw [← hz (fun j : ℕ => s * ((j : ℝ) + 1)) (fun j => (∑ r ∈ Finset.range R, (Spec.line c (E r)).getD j 0) / R), ← h1]
    clear * -
    fin_cases c <;> rfl

/-- Position of the first curve's realizations is `pos`, of the second's one block later. -/
theorem recreateFig2_ok {ca cb : LFConfig} (pa : ca.Pos) (pb : cb.Pos) {a b : LowFreq} (ha : lfInit ca = .ok a)
    (hb : lfInit cb = .ok b) (ta : 1e-9 < 2 * Real.pi / a.userL1) (tb : 1e-9 < 2 * Real.pi / b.userL1)
    (na : 2 ≤ a.userN1) (nb : 2 ≤ b.userN1) (x y z w : Option (Mat × Mat)) (g : ℕ → ℝ) {R : ℕ} (hR : 0 < R) (pos : ℕ) :
    ∃ A B, recreateFig2 { a with full := x, u := y } { b with full := z, u := w } R g pos = .ok (some (A, B)) ∧
      (A.x = (List.range (a.userN1 / 2)).map (fun j : ℕ => 2 * Real.pi / a.userL1 * ((j : ℝ) + 1) * ca.L2d) ∧
        ∀ c, A.y c = (List.range (a.userN1 / 2)).map (fun j : ℕ => 2 * Real.pi / a.userL1 * ((j : ℝ) + 1) *
          ((∑ r ∈ Finset.range R, (Spec.line c (estimate a g
            (pos + r * (a.compN1 * a.compN2 + b.compN1 * b.compN2)))).getD j 0) / R))) ∧
      (B.x = (List.range (b.userN1 / 2)).map (fun j : ℕ => 2 * Real.pi / b.userL1 * ((j : ℝ) + 1) * cb.L2d) ∧
        ∀ c, B.y c = (List.range (b.userN1 / 2)).map (fun j : ℕ => 2 * Real.pi / b.userL1 * ((j : ℝ) + 1) *
          ((∑ r ∈ Finset.range R, (Spec.line c (estimate b g
            (pos + a.compN1 * a.compN2 + r * (a.compN1 * a.compN2 + b.compN1 * b.compN2)))).getD j 0) / R))) := by
  have hcfg : ∀ {cfg : LFConfig} {lf : LowFreq}, cfg.Pos → lfInit cfg = .ok lf → lf.cfg = cfg := by
    intro cfg lf hp h
    obtain ⟨cc, hcc⟩ := lfInit_computeC h
    obtain ⟨lf0, e0, hc, -⟩ := lfInit_ok hp hcc
    rw [h] at e0
    obtain rfl := Except.ok.inj e0
    exact hc
  obtain ⟨A, hA, hA'⟩ := fig2Curve_ok hR (n := a.userN1 / 2) (by omega) ca.L2d (2 * Real.pi / a.userL1)
    (fun r => estimate a g (pos + r * (a.compN1 * a.compN2 + b.compN1 * b.compN2)))
    (fun r => (estimate_ok pa ha ta g _).2.1) (fun r c => (estimate_ok pa ha ta g _).2.2.1 c)
  obtain ⟨B, hB, hB'⟩ := fig2Curve_ok hR (n := b.userN1 / 2) (by omega) cb.L2d (2 * Real.pi / b.userL1)
    (fun r => estimate b g (pos + a.compN1 * a.compN2 + r * (a.compN1 * a.compN2 + b.compN1 * b.compN2)))
    (fun r => (estimate_ok pb hb tb g _).2.1) (fun r c => (estimate_ok pb hb tb g _).2.2.1 c)
  refine ⟨A, B, ?_, hA', hB'⟩
  unfold recreateFig2
  rw [fig2Loop_ok pa pb ha hb ta tb]
  simp only [List.map_map]
  rw [if_neg (by
    intro h
    rw [List.map_eq_nil_iff, List.range_eq_nil] at h
    omega), hcfg pa ha, hcfg pb hb]
  have e1 : (Prod.fst ∘ fun r => (estimate a g (pos + r * (a.compN1 * a.compN2 + b.compN1 * b.compN2)),
      estimate b g (pos + a.compN1 * a.compN2 + r * (a.compN1 * a.compN2 + b.compN1 * b.compN2)))) =
      fun r => estimate a g (pos + r * (a.compN1 * a.compN2 + b.compN1 * b.compN2)) := rfl
  have e2 : (Prod.snd ∘ fun r => (estimate a g (pos + r * (a.compN1 * a.compN2 + b.compN1 * b.compN2)),
      estimate b g (pos + a.compN1 * a.compN2 + r * (a.compN1 * a.compN2 + b.compN1 * b.compN2)))) =
      fun r => estimate b g (pos + a.compN1 * a.compN2 + r * (a.compN1 * a.compN2 + b.compN1 * b.compN2)) := rfl
  rw [e1, e2, hA]
  simp only
  rw [hB]
  rfl

/-- What the numerical curve of one generator shows: abscissae `k1 L2d`, and ordinates whose expectation at the wavenumbers below
the Nyquist wavenumber is `k1` times the expected estimate. -/
structure Spec.CurveMeans {Ω : Type} [MeasurableSpace Ω] (μ : Measure Ω) (cfg : LFConfig) (lf : LowFreq) (C : Ω → Fig2Curve) :
    Prop where
  x : ∀ ω, (C ω).x = (List.range (lf.userN1 / 2)).map (fun j : ℕ => 2 * Real.pi / lf.userL1 * ((j : ℝ) + 1) * cfg.L2d)
  len : ∀ ω c, ((C ω).y c).length = lf.userN1 / 2
  mean : ∀ (c : Fin 2) (k : ℕ), 0 < k → 2 * k < lf.userN1 → Integrable (fun ω => ((C ω).y c).getD (k - 1) 0) μ ∧
    ∫ ω, ((C ω).y c).getD (k - 1) 0 ∂μ = 2 * Real.pi / lf.userL1 * k * Spec.expectedSpectrum cfg lf c k

theorem getD_range_map {n k : ℕ} (f : ℕ → ℝ) (h1 : 0 < k) (h2 : 2 * k < n) : ((List.range (n / 2)).map f).getD (k - 1) 0 =
    f (k - 1) := by
  rw [List.getD_eq_getElem?_getD, List.getElem?_map, List.getElem?_range (by omega)]
  rfl

theorem curveMeans_of {Ω : Type} [MeasurableSpace Ω] {μ : Measure Ω} {cfg : LFConfig} {lf : LowFreq}
    (r : LowFreqRegular cfg lf) (ht : 1e-9 < 2 * Real.pi / lf.userL1) (γ : ℕ → Ω → ℝ) (hL2 : ∀ m, MemLp (γ m) 2 μ)
    (hcov : ∀ m n, ∫ ω, γ m ω * γ n ω ∂μ = if m = n then 1 else 0) {R : ℕ} (hR : 0 < R) (P : ℕ → ℕ) {C : Ω → Fig2Curve}
    (hC : ∀ ω, (C ω).x = (List.range (lf.userN1 / 2)).map (fun j : ℕ => 2 * Real.pi / lf.userL1 * ((j : ℝ) + 1) * cfg.L2d) ∧
      ∀ c, (C ω).y c = (List.range (lf.userN1 / 2)).map (fun j : ℕ => 2 * Real.pi / lf.userL1 * ((j : ℝ) + 1) *
        ((∑ r ∈ Finset.range R, (Spec.line c (estimate lf (fun m => γ m ω) (P r))).getD j 0) / R))) :
    Spec.CurveMeans μ cfg lf C where
  x := fun ω => (hC ω).1
  len := fun ω c => by rw [(hC ω).2 c]; simp
  mean := by
    intro c k h1 h2
    have hE := fun i => estimate_expected r ht γ hL2 hcov (P i) c h1 h2
    simp only [fun ω => (hC ω).2 c, getD_range_map _ h1 h2]
    have hsum := (integrable_finsetSum (Finset.range R) fun i _ => (hE i).1).div_const (R : ℝ)
    refine ⟨hsum.const_mul _, ?_⟩
    rw [integral_const_mul, integral_div, integral_finsetSum _ fun i _ => (hE i).1]
    simp only [fun i => (hE i).2]
    rw [Finset.sum_const, Finset.card_range, nsmul_eq_mul,
      show (((k - 1 : ℕ) : ℝ) + 1) = (k : ℝ) by exact_mod_cast Nat.sub_add_cancel h1]
    have : (R : ℝ) ≠ 0 := by exact_mod_cast hR.ne'
    rw [mul_div_cancel_left₀ _ this]

/-- **C113** `recreate_fig2` succeeds and draws for each generator the points `k1 L2d` and ordinates with expectation `k1` times
the expectation of one estimate, whatever the generators produced before. -/
theorem C113_curves {Ω : Type} [MeasurableSpace Ω] {μ : Measure Ω} {ca cb : LFConfig} {a b : LowFreq}
    (ra : LowFreqRegular ca a) (rb : LowFreqRegular cb b) (ta : 1e-9 < 2 * Real.pi / a.userL1)
    (tb : 1e-9 < 2 * Real.pi / b.userL1) (na : 2 ≤ a.userN1) (nb : 2 ≤ b.userN1) (x y z w : Option (Mat × Mat))
    (γ : ℕ → Ω → ℝ) (hL2 : ∀ m, MemLp (γ m) 2 μ)
    (hcov : ∀ m n, ∫ ω, γ m ω * γ n ω ∂μ = if m = n then 1 else 0) {R : ℕ} (hR : 0 < R) (pos : ℕ) :
    ∃ A B : Ω → Fig2Curve, (∀ ω, recreateFig2 { a with full := x, u := y } { b with full := z, u := w } R (fun m => γ m ω) pos =
        .ok (some (A ω, B ω))) ∧
      Spec.CurveMeans μ ca a A ∧ Spec.CurveMeans μ cb b B := by
  choose A B h hA hB using fun ω =>
    recreateFig2_ok ra.pos rb.pos ra.init rb.init ta tb na nb x y z w (fun m => γ m ω) hR pos
  exact ⟨A, B, h, curveMeans_of ra ta γ hL2 hcov hR _ hA, curveMeans_of rb tb γ hL2 hcov hR _ hB⟩

/-- **C113** With independent noise of mean 0 and variance 1 every point of the curves below the Nyquist wavenumber converges with
probability one as the number of realizations grows. -/
theorem C113_converges {Ω : Type} [MeasurableSpace Ω] {μ : Measure Ω} [IsProbabilityMeasure μ] {ξ : ℕ → Ω → ℝ} {ν : Measure ℝ}
    (h : Spec.Stream μ ξ ν) (hν : Spec.Standard ν) {ca cb : LFConfig} {a b : LowFreq}
    (ra : LowFreqRegular ca a) (rb : LowFreqRegular cb b) (ta : 1e-9 < 2 * Real.pi / a.userL1)
    (tb : 1e-9 < 2 * Real.pi / b.userL1) (na : 2 ≤ a.userN1) (nb : 2 ≤ b.userN1) (x y z w : Option (Mat × Mat)) (pos : ℕ) :
    ∀ᵐ ω ∂μ, ∀ C : ℕ → Fig2Curve × Fig2Curve,
      (∀ R > 0, recreateFig2 { a with full := x, u := y } { b with full := z, u := w } R (fun m => ξ m ω) pos = .ok (some (C R))) →
      ∀ (c : Fin 2) (k : ℕ), 0 < k →
        (2 * k < a.userN1 → Tendsto (fun R => ((C R).1.y c).getD (k - 1) 0) atTop
          (𝓝 (2 * Real.pi / a.userL1 * k * Spec.expectedSpectrum ca a c k))) ∧
        (2 * k < b.userN1 → Tendsto (fun R => ((C R).2.y c).getD (k - 1) 0) atTop
          (𝓝 (2 * Real.pi / b.userL1 * k * Spec.expectedSpectrum cb b c k))) := by
  have ha : ∀ᵐ ω ∂μ, ∀ (c : Fin 2) (k : ℕ), 0 < k → 2 * k < a.userN1 → Tendsto (fun R : ℕ => (∑ r ∈ Finset.range R,
      (Spec.line c (estimate a (fun n => ξ n ω) (pos + r * (a.compN1 * a.compN2 + b.compN1 * b.compN2)))).getD (k - 1) 0) / R)
      atTop (𝓝 (Spec.expectedSpectrum ca a c k)) := by
    refine ae_all_iff.2 fun c => ae_all_iff.2 fun k => ?_
    by_cases h1 : 0 < k ∧ 2 * k < a.userN1
    · filter_upwards [estimate_average h hν ra ta pos (Nat.le_add_right _ (b.compN1 * b.compN2)) c h1.1 h1.2] with ω hω
      exact fun _ _ => hω
    · exact Eventually.of_forall fun ω q1 q2 => absurd ⟨q1, q2⟩ h1
  have hb : ∀ᵐ ω ∂μ, ∀ (c : Fin 2) (k : ℕ), 0 < k → 2 * k < b.userN1 → Tendsto (fun R : ℕ => (∑ r ∈ Finset.range R,
      (Spec.line c (estimate b (fun n => ξ n ω) (pos + a.compN1 * a.compN2 +
        r * (a.compN1 * a.compN2 + b.compN1 * b.compN2)))).getD (k - 1) 0) / R)
      atTop (𝓝 (Spec.expectedSpectrum cb b c k)) := by
    refine ae_all_iff.2 fun c => ae_all_iff.2 fun k => ?_
    by_cases h1 : 0 < k ∧ 2 * k < b.userN1
    · filter_upwards [estimate_average h hν rb tb (pos + a.compN1 * a.compN2) (Nat.le_add_left _ (a.compN1 * a.compN2))
        c h1.1 h1.2] with ω hω
      exact fun _ _ => hω
    · exact Eventually.of_forall fun ω q1 q2 => absurd ⟨q1, q2⟩ h1
  filter_upwards [ha, hb] with ω hωa hωb
  intro C hC c k h1
  have hk : (((k - 1 : ℕ) : ℝ) + 1) = (k : ℝ) := by exact_mod_cast Nat.sub_add_cancel h1
  have hval : ∀ R > 0, (∀ c, (C R).1.y c = _) ∧ (∀ c, (C R).2.y c = _) := fun R hR => by
    obtain ⟨A, B, e, hA, hB⟩ := recreateFig2_ok ra.pos rb.pos ra.init rb.init ta tb na nb x y z w (fun m => ξ m ω) hR pos
    rw [hC R hR] at e
    have e := Option.some.inj (Except.ok.inj e)
    rw [e]
    exact ⟨hA.2, hB.2⟩
  refine ⟨fun h2 => ?_, fun h2 => ?_⟩
  · refine ((hωa c k h1 h2).const_mul (2 * Real.pi / a.userL1 * k)).congr' ?_
    filter_upwards [eventually_gt_atTop 0] with R hR
    rw [(hval R hR).1 c, getD_range_map _ h1 h2, hk]
  · refine ((hωb c k h1 h2).const_mul (2 * Real.pi / b.userL1 * k)).congr' ?_
    filter_upwards [eventually_gt_atTop 0] with R hR
    rw [(hval R hR).2 c, getD_range_map _ h1 h2, hk]

/-- **C113** Without realizations nothing is drawn; a generator with a single point along the first direction has no positive
wavenumber, and `recreate_fig2` raises `ValueError`. -/
theorem C113_edge {ca cb : LFConfig} (pa : ca.Pos) (pb : cb.Pos) {a b : LowFreq} (ha : lfInit ca = .ok a)
    (hb : lfInit cb = .ok b) (ta : 1e-9 < 2 * Real.pi / a.userL1) (tb : 1e-9 < 2 * Real.pi / b.userL1) (g : ℕ → ℝ) (pos : ℕ) :
    recreateFig2 a b 0 g pos = .ok none ∧
    (a.userN1 = 1 → ∀ R > 0, recreateFig2 a b R g pos = .error .valueError) := by
  refine ⟨rfl, fun hn R hR => ?_⟩
  have hl : fig2Loop a b g R pos = _ := fig2Loop_ok pa pb ha hb ta tb g R a.full a.u b.full b.u pos
  unfold recreateFig2
  rw [hl]
  simp only
  obtain ⟨m, rfl⟩ := Nat.exists_eq_succ_of_ne_zero hR.ne'
  rw [if_neg (by simp)]
  have : fig2Curve a.cfg.L2d (((List.range m.succ).map fun r =>
          (estimate a g (pos + r * (a.compN1 * a.compN2 + b.compN1 * b.compN2)),
           estimate b g (pos + a.compN1 * a.compN2 + r * (a.compN1 * a.compN2 + b.compN1 * b.compN2)))).map Prod.fst) =
      .error .valueError := by
    unfold fig2Curve
    rw [List.range_succ_eq_map]
    simp only [List.map_cons, List.headD_cons]
    rw [(estimate_ok pa ha ta g _).2.1, hn]
    rfl
  rw [this]
  rfl

/-! ### The configurations of the studies are regular -/

theorem study_regular {f1 f2 : ℝ} {e1 e2 : ℕ} (h1 : 2 ≤ f1) (h1' : f1 ≤ 20) (h2 : 2 ≤ f2) (h2' : f2 ≤ 20) (he1 : e1 ≤ 12)
    (he2 : e2 ≤ 12) : ∃ lf, LowFreqRegular ⟨2, 15000, Real.pi / 4, 500, f1, f2, e1, e2⟩ lf ∧ lf.userL1 = f1 * 15000 ∧
      lf.userN1 = 2 ^ e1 := by
  obtain ⟨c, hc⟩ := study_computeC
  set cfg : LFConfig := ⟨2, 15000, Real.pi / 4, 500, f1, f2, e1, e2⟩ with hcfg
  have hp : cfg.Pos := ⟨by norm_num [hcfg], by simp only [hcfg]; linarith, by simp only [hcfg]; linarith⟩
  obtain ⟨lf, h, -, -, -, -, L1, L2, N1, N2, ex, ey, -, ⟨dx, dy⟩, -⟩ := lfInit_ok (cfg := cfg) hp hc
  obtain ⟨-, -, -, ⟨a1, a2⟩, ⟨b1, b2⟩, -⟩ := C67_grid hp h
  simp only [hcfg] at L1 L2 N1 N2 a1 a2 b1 b2
  have hpow : ∀ e ≤ 12, (1 : ℝ) ≤ ((2 ^ e : ℕ) : ℝ) ∧ ((2 ^ e : ℕ) : ℝ) ≤ 4096 := by
    intro e he
    have g1 : 1 ≤ 2 ^ e := Nat.one_le_two_pow
    have g2 : 2 ^ e ≤ 2 ^ 12 := Nat.pow_le_pow_right (by norm_num) he
    exact ⟨by exact_mod_cast g1, by exact_mod_cast g2⟩
  have hd : ∀ (f : ℝ) (e : ℕ), 2 ≤ f → f ≤ 20 → e ≤ 12 → 1 ≤ f * 15000 / ((2 ^ e : ℕ) : ℝ) ∧
      f * 15000 / ((2 ^ e : ℕ) : ℝ) ≤ 300000 := by
    intro f e hf hf' he
    obtain ⟨g1, g2⟩ := hpow e he
    constructor
    · rw [le_div_iff₀ (by linarith)]
      linarith
    · rw [div_le_iff₀ (by linarith)]
      nlinarith
  rw [L1, N1] at ex
  rw [L2, N2] at ey
  obtain ⟨x1, x2⟩ := hd f1 e1 h1 h1' he1
  obtain ⟨y1, y2⟩ := hd f2 e2 h2 h2' he2
  rw [← ex] at x1 x2
  rw [← ey] at y1 y2
  have m1 : 1 ≤ min lf.userDx lf.userDy := le_min x1 y1
  have m2 : min lf.userDx lf.userDy ≤ 300000 := (min_le_left _ _).trans x2
  have hL : ∀ (f L : ℝ), 2 ≤ f → f ≤ 20 → max (f * 15000) (5 * 15000) ≤ L →
      L < max (f * 15000) (5 * 15000) + 2 * min lf.userDx lf.userDy → 1e-20 ≤ (2 * Real.pi / L * (√2 / 2)) ^ 2 := by
    intro f L hf hf' l1 l2
    have u1 : 75000 ≤ L := le_trans (by norm_num) ((le_max_right _ _).trans l1)
    have u2 : max (f * 15000) (5 * 15000) ≤ 300000 := max_le (by linarith) (by norm_num)
    have hpi := Real.two_le_pi
    rw [mul_pow, div_pow √2, Real.sq_sqrt (by norm_num)]
    have : (4 / 1000000 : ℝ) ≤ 2 * Real.pi / L := by
      rw [div_le_div_iff₀ (by norm_num) (by linarith)]
      nlinarith
    nlinarith
  refine ⟨lf, ⟨hp, h, by norm_num [hcfg], ?_, ?_, ?_, ?_⟩, L1, N1⟩
  · have : (1 / cfg.L2d ^ 2) = (1 / 225000000 : ℝ) := by norm_num [hcfg]
    rw [this]
    calc (1e-30 : ℝ) ≤ (1 / 225000000 : ℝ) ^ (3 : ℝ) := by norm_num
      _ ≤ (1 / 225000000 : ℝ) ^ (7 / 3 : ℝ) :=
        Real.rpow_le_rpow_of_exponent_ge (by norm_num) (by norm_num) (by norm_num)
  · rw [dx, dy]
    nlinarith
  · rw [show cfg.psi = Real.pi / 4 from rfl, Real.cos_pi_div_four]
    rw [dx, L1] at a2
    rw [L1] at a1
    exact hL f1 _ h1 h1' a1 a2
  · rw [show cfg.psi = Real.pi / 4 from rfl, Real.sin_pi_div_four]
    rw [dy, L2] at b2
    rw [L2] at b1
    exact hL f2 _ h2 h2' b1 b2

/-- The hypotheses of `C112_domains` hold for both studies with the base configuration of the script. -/
example : (∀ D ∈ Spec.rectangles, ∃ lf, LowFreqRegular (Spec.domain (domainConfig 5) D) lf) ∧
    ∀ D ∈ Spec.gridSweep, ∃ lf, LowFreqRegular (Spec.domain (domainConfig 5) D) lf := by
  have key : ∀ D : (ℝ × ℝ) × (ℕ × ℕ), 2 ≤ D.1.1 ∧ D.1.1 ≤ 20 ∧ 2 ≤ D.1.2 ∧ D.1.2 ≤ 20 ∧ D.2.1 ≤ 12 ∧ D.2.2 ≤ 12 →
      ∃ lf, LowFreqRegular (Spec.domain (domainConfig 5) D) lf := by
    rintro D ⟨h1, h2, h3, h4, h5, h6⟩
    obtain ⟨lf, h, -⟩ := study_regular h1 h2 h3 h4 h5 h6
    exact ⟨lf, h⟩
  rw [← gridDomains_eq, ← rectDomains_eq]
  constructor
  · intro D hD
    refine key D ?_
    simp only [rectDomains, List.mem_cons, List.not_mem_nil, or_false] at hD
    rcases hD with rfl | rfl | rfl | rfl | rfl | rfl | rfl | rfl | rfl | rfl <;> norm_num
  · intro D hD
    refine key D ?_
    simp only [gridDomains, List.mem_flatMap, List.mem_map, List.mem_cons, List.not_mem_nil, or_false] at hD
    obtain ⟨e, he, f, hf, rfl⟩ := hD
    have h1 : e ≤ 12 := by omega
    have h2 : 2 ≤ f ∧ f ≤ 20 := by rcases hf with rfl | rfl | rfl | rfl | rfl | rfl | rfl | rfl | rfl | rfl <;> norm_num
    exact ⟨h2.1, h2.2, h2.1, h2.2, h1, h1⟩

/-- The hypotheses of `C112_anisotropy`, `C112_converges` and `C113_curves` can be met: an angle of 45 degrees, and two
generators of different size. -/
example : (∃ lf, LowFreqRegular (Spec.atDegrees (domainConfig 5) 45) lf) ∧
    ∃ a b, LowFreqRegular (domainConfig 5) a ∧ LowFreqRegular (domainConfig 8) b ∧ 1e-9 < 2 * Real.pi / a.userL1 ∧
      1e-9 < 2 * Real.pi / b.userL1 ∧ 2 ≤ a.userN1 ∧ 2 ≤ b.userN1 := by
  obtain ⟨a, ha, la, na⟩ := study_regular (f1 := 5) (f2 := 5) (e1 := 9) (e2 := 9) (by norm_num) (by norm_num) (by norm_num)
    (by norm_num) (by norm_num) (by norm_num)
  obtain ⟨b, hb, lb, nb⟩ := study_regular (f1 := 8) (f2 := 8) (e1 := 9) (e2 := 9) (by norm_num) (by norm_num) (by norm_num)
    (by norm_num) (by norm_num) (by norm_num)
  have hpi := Real.two_le_pi
  refine ⟨⟨a, ?_⟩, a, b, ha, hb, ?_, ?_, by rw [na]; norm_num, by rw [nb]; norm_num⟩
  · have : Spec.atDegrees (domainConfig 5) 45 = domainConfig 5 := by
      unfold Spec.atDegrees domainConfig
      congr 1
      ring
    rw [this]
    exact ha
  · rw [la, lt_div_iff₀ (by norm_num)]
    linarith
  · rw [lb, lt_div_iff₀ (by norm_num)]
    linarith

/-- The law numpy draws from is standard. -/
example : Spec.Standard (gaussianReal 0 1) where
  sq := memLp_id_gaussianReal 2
  mean := integral_id_gaussianReal
  var := by
    have h := variance_eq_sub (memLp_id_gaussianReal (μ := 0) (v := 1) 2)
    rw [variance_id_gaussianReal] at h
    simp only [id_eq, Pi.pow_apply, integral_id_gaussianReal] at h
    norm_num at h
    exact h.symm

end
end Verif
