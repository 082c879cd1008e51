import Verif.Props.GeneratorSeam
import Mathlib.Probability.Distributions.Gaussian.HasGaussianLaw.Basic
import Mathlib.Probability.Distributions.Gaussian.HasGaussianLaw.Independence

/-!
# The law of the sampled field and of the generated blocks (C99)
-/

namespace Verif
open Fl

noncomputable section
open Classical MeasureTheory ProbabilityTheory Filter Topology

section
variable {n1 n2 n3 : ℕ} [NeZero n1] [NeZero n2] [NeZero n3]
variable {Ω : Type} [MeasurableSpace Ω] {μ : Measure Ω} [IsProbabilityMeasure μ]

/-- The sampler as a continuous linear map. -/
def vfLinear (S : Box n1 n2 n3 → Matrix (Fin 3) (Fin 3) ℂ) (norm : ℝ) :
    (Box n1 n2 n3 × Fin 3 → ℝ) →L[ℝ] (Box n1 n2 n3 × Fin 3 → ℝ) :=
  LinearMap.toContinuousLinearMap
    { toFun := fun f w => vfSample S norm (fun y l => f (y, l)) w.1 w.2
      map_add' := fun f g => by
        funext w
        have := C61_linear S norm 1 1 (fun y l => f (y, l)) (fun y l => g (y, l)) w.1 w.2
        simpa using this
      map_smul' := fun r f => by
        funext w
        have := C61_linear S norm r 0 (fun y l => f (y, l)) (fun y l => f (y, l)) w.1 w.2
        simpa using this }

theorem vfLinear_apply (S : Box n1 n2 n3 → Matrix (Fin 3) (Fin 3) ℂ) (norm : ℝ) (f : Box n1 n2 n3 × Fin 3 → ℝ)
    (w : Box n1 n2 n3 × Fin 3) : vfLinear S norm f w = vfSample S norm (fun y l => f (y, l)) w.1 w.2 := rfl

/-- **C99.**  For every spectrum: the field sampled from independent normal noise has a Gaussian law, all points and
components jointly. -/
theorem C99_gaussian (S : Box n1 n2 n3 → Matrix (Fin 3) (Fin 3) ℂ) (norm : ℝ) {ξ : Box n1 n2 n3 × Fin 3 → Ω → ℝ}
    (hi : iIndepFun ξ μ) (hG : ∀ w, HasGaussianLaw (ξ w) μ) :
    HasGaussianLaw (fun ω (w : Box n1 n2 n3 × Fin 3) => vfSample S norm (fun y l => ξ (y, l) ω) w.1 w.2) μ :=
  (iIndepFun.hasGaussianLaw hG hi).map_fun (vfLinear S norm)

/-- **C99.**  For every spectrum: the field sampled from independent noise with one common law at all points (which may
depend on the component) is strictly stationary on the periodic box: the law of the whole field does not change under
translation. -/
theorem C99_stationary (S : Box n1 n2 n3 → Matrix (Fin 3) (Fin 3) ℂ) (norm : ℝ) {ξ : Box n1 n2 n3 × Fin 3 → Ω → ℝ}
    (hm : ∀ w, Measurable (ξ w)) (hi : iIndepFun ξ μ) {ν : Fin 3 → Measure ℝ} (hν : ∀ w, μ.map (ξ w) = ν w.2)
    (s : Box n1 n2 n3) :
    IdentDistrib (fun ω (w : Box n1 n2 n3 × Fin 3) => vfSample S norm (fun y l => ξ (y, l) ω) (w.1 + s) w.2)
      (fun ω (w : Box n1 n2 n3 × Fin 3) => vfSample S norm (fun y l => ξ (y, l) ω) w.1 w.2) μ μ := by
  have hlaw : ∀ t : Box n1 n2 n3, μ.map (fun ω (w : Box n1 n2 n3 × Fin 3) => ξ (w.1 + t, w.2) ω) = Measure.pi fun w => ν w.2 := by
    intro t
    have hinj : Function.Injective fun w : Box n1 n2 n3 × Fin 3 => (w.1 + t, w.2) := by
      rintro ⟨a, b⟩ ⟨c, d⟩ h
      simpa using h
    rw [(hi.precomp hinj).map_fun_eq_pi_map fun w => (hm _).aemeasurable]
    simp only [hν]
  have hid : IdentDistrib (fun ω (w : Box n1 n2 n3 × Fin 3) => ξ (w.1 + s, w.2) ω) (fun ω w => ξ w ω) μ μ :=
    { aemeasurable_fst := (measurable_pi_lambda _ fun w => hm _).aemeasurable
      aemeasurable_snd := (measurable_pi_lambda _ fun w => hm _).aemeasurable
      map_eq := by
        have h0 := hlaw 0
        simp only [add_zero] at h0
        rw [hlaw s, h0] }
  have := hid.comp (vfLinear S norm).continuous.measurable
  have e : (fun ω (w : Box n1 n2 n3 × Fin 3) => vfSample S norm (fun y l => ξ (y, l) ω) (w.1 + s) w.2) =
      (vfLinear S norm) ∘ fun ω (w : Box n1 n2 n3 × Fin 3) => ξ (w.1 + s, w.2) ω := by
    funext ω w
    rw [Function.comp_apply, vfLinear_apply, ← C61_shift]
  rw [e]
  exact this

end

/-! ### The generator -/

/-- A stream of independent standard normal values has mean zero and is white. -/
theorem Spec.Stream.mean {Ω : Type} [MeasurableSpace Ω] {μ : Measure Ω} {ξ : ℕ → Ω → ℝ}
    (h : Spec.Stream μ ξ (gaussianReal 0 1)) (n : ℕ) : ∫ ω, ξ n ω ∂μ = 0 := by
  have := integral_map (μ := μ) (φ := ξ n) (h.1 n).aemeasurable (f := fun x : ℝ => x) measurable_id.aestronglyMeasurable
  rw [h.2.2 n, integral_id_gaussianReal] at this
  exact this.symm

theorem Spec.Stream.white {Ω : Type} [MeasurableSpace Ω] {μ : Measure Ω} {ξ : ℕ → Ω → ℝ}
    (h : Spec.Stream μ ξ (gaussianReal 0 1)) : Spec.WhiteStream μ ξ := by
  have hG : ∀ n, HasGaussianLaw (ξ n) μ := fun n => ⟨by rw [h.2.2 n]; infer_instance⟩
  refine ⟨fun n => (hG n).memLp_two, fun n m => ?_⟩
  by_cases hnm : n = m
  · subst hnm
    rw [if_pos rfl]
    have h2 : ∫ x, x * x ∂(gaussianReal 0 1) = 1 := by
      have := variance_fun_id_gaussianReal (μ := 0) (v := 1)
      rw [variance_of_integral_eq_zero (by fun_prop) integral_id_gaussianReal] at this
      simpa [sq] using this
    have := integral_map (μ := μ) (φ := ξ n) (h.1 n).aemeasurable (f := fun x : ℝ => x * x)
      (measurable_id.mul measurable_id).aestronglyMeasurable
    rw [h.2.2 n, h2] at this
    exact this.symm
  · rw [if_neg hnm, (h.2.1.indepFun hnm).integral_fun_mul_eq_mul_integral (h.1 n).aestronglyMeasurable (h.1 m).aestronglyMeasurable,
      h.mean, zero_mul]

section
variable {g : Gen} [NeZero g.shape1.toNat] [NeZero g.shape2.toNat] [NeZero g.shape3.toNat]
variable {Ω : Type} [MeasurableSpace Ω] {μ : Measure Ω} [IsProbabilityMeasure μ] {ξ : ℕ → Ω → ℝ}

/-- **C99.**  With a stream of independent standard normal values, the fields on the windows of any number of consecutive
blocks have a joint Gaussian law, and the value at a point has the normal law with mean zero and variance the noise variance
times the squared response of the sampler summed over all displacements. -/
theorem C99_windows (h : Spec.Stream μ ξ (gaussianReal 0 1)) {env : GenEnv} {a : GenArgs} {q : ℕ} (ha : a.PosScales)
    (hinit : genInit env a = (.ok g, q)) (M : ℕ) :
    HasGaussianLaw (fun ω (w : Fin M × Box g.shape1.toNat g.shape2.toNat g.shape3.toNat × Fin 3) =>
      g.periodic (fun n => ξ n ω) w.1 w.2.1 w.2.2) μ ∧
    ∀ j x k, μ.map (fun ω => g.periodic (fun n => ξ n ω) j x k) =
      gaussianReal 0 (g.rf.noiseStd ^ 2 * ∑ d, ∑ l, g.response d k l ^ 2).toNNReal := by
  have hg := genInit_good ha hinit
  have hG : ∀ n, HasGaussianLaw (ξ n) μ := fun n => ⟨by rw [h.2.2 n]; infer_instance⟩
  -- finitely many values of the stream are enough
  have hfin : ∀ M : ℕ, HasGaussianLaw (fun ω (w : Fin M × Box g.shape1.toNat g.shape2.toNat g.shape3.toNat × Fin 3) =>
      g.periodic (fun n => ξ n ω) w.1 w.2.1 w.2.2) μ := by
    intro M
    set B := (M * g.Nx + g.shape1.toNat) * (g.shape2.toNat * g.shape3.toNat * 3) with hB
    have hpl : ∀ (j : Fin M) w, g.place j w < B := by
      intro j w
      refine lt_of_lt_of_le (place_bounds g j w).2 (Nat.mul_le_mul_right _ ?_)
      have : (j : ℕ) * g.Nx ≤ M * g.Nx := Nat.mul_le_mul_right _ j.isLt.le
      omega
    have hj : HasGaussianLaw (fun ω (n : Fin B) => ξ n ω) μ :=
      iIndepFun.hasGaussianLaw (fun n => hG n) (h.2.1.precomp Fin.val_injective)
    let Λ : (Fin B → ℝ) →L[ℝ] (Fin M × Box g.shape1.toNat g.shape2.toNat g.shape3.toNat × Fin 3 → ℝ) :=
      ContinuousLinearMap.pi fun w => ∑ v : Box g.shape1.toNat g.shape2.toNat g.shape3.toNat × Fin 3,
        (g.response (w.2.1 - v.1) w.2.2 v.2 * g.rf.noiseStd) • ContinuousLinearMap.proj (R := ℝ) (φ := fun _ : Fin B => ℝ) ⟨g.place w.1 v, hpl w.1 v⟩
    have := hj.map_fun Λ
    have e : (fun ω (w : Fin M × Box g.shape1.toNat g.shape2.toNat g.shape3.toNat × Fin 3) =>
        g.periodic (fun n => ξ n ω) w.1 w.2.1 w.2.2) = fun ω => Λ fun n => ξ n ω := by
      funext ω w
      rw [periodic_eq]
      simp only [Λ, ContinuousLinearMap.coe_pi', ContinuousLinearMap.coe_sum', ContinuousLinearMap.coe_smul', Finset.sum_apply, Pi.smul_apply,
        ContinuousLinearMap.proj_apply, smul_eq_mul]
      exact Finset.sum_congr rfl fun v _ => by ring
    rw [e]
    exact this
  refine ⟨hfin M, fun j x k => ?_⟩
  have h1 : HasGaussianLaw (fun ω => g.periodic (fun n => ξ n ω) j x k) μ :=
    (hfin (j + 1)).eval (X := fun (w : Fin (j + 1) × Box g.shape1.toNat g.shape2.toNat g.shape3.toNat × Fin 3) ω =>
      g.periodic (fun n => ξ n ω) w.1 w.2.1 w.2.2) (Fin.last j, x, k)
  have hmean0 := h.mean
  have hL2 := h.white.1
  have hwhite := h.white
  have hmean : ∫ ω, g.periodic (fun n => ξ n ω) j x k ∂μ = 0 := by
    simp only [periodic_eq]
    rw [integral_finsetSum _ fun w _ => (((hL2 _).integrable one_le_two).mul_const _).const_mul _]
    refine Finset.sum_eq_zero fun w _ => ?_
    rw [integral_const_mul, integral_mul_const, hmean0, zero_mul, mul_zero]
  have hvar : Var[fun ω => g.periodic (fun n => ξ n ω) j x k; μ] = g.rf.noiseStd ^ 2 * ∑ d, ∑ l, g.response d k l ^ 2 := by
    rw [variance_of_integral_eq_zero h1.aemeasurable hmean]
    exact (C98_jump hwhite ha hinit j x k).1
  rw [h1.map_eq_gaussianReal, hmean, hvar]

omit [NeZero g.shape1.toNat] [NeZero g.shape2.toNat] [NeZero g.shape3.toNat] in
/-- **C99.**  The blocks of the returned field are not Gaussian: with a stream of independent values with a symmetric law
without atoms (such as normal values) it is impossible that all values of a block of the field returned by a call have normal
laws. -/
theorem C99_blocks_not_gaussian {ν : Measure ℝ} (h : Spec.Stream μ ξ ν) (hat : ∀ x, ν {x} = 0)
    (hsym : ν.map (fun x => -x) = ν) {env : GenEnv} {a : GenArgs} (hp : a.PosScales)
    (he : a.PosEnergy) (hlow : a.low = none) {q : ℕ} (hinit : genInit env a = (.ok g, q)) (hK : g.kernel.Valid)
    {p : ProfileArgs} (hv : p.Valid) (hfin : ∀ c < g.Nz, (Spec.meanWind p (c * (a.d3 / 2 ^ a.l3))).IsFin) {n j : ℕ} (hj : j < n) :
    ¬ ∀ r < g.Nx, ∀ b < g.Ny, ∀ c < g.Nz, ∀ k, ∃ m v,
      μ.map (fun ω => Spec.readOut ((g.withStream fun i => ξ i ω).generate p n).1 (j * g.Nx + r) b c k) = gaussianReal m v := by
  intro hall
  have hg := genInit_good hp hinit
  obtain ⟨W, hWm, hW, hWb, hmean, -, -, -⟩ := C97_blocks h hat hp he hlow hinit hK
  have hfin' : ∀ c < g.Nz, ∃ m, Spec.meanWind p (c * (a.d3 / 2 ^ a.l3)) = fin m := by
    intro c hc
    have := hfin c hc
    cases hx : Spec.meanWind p (c * (a.d3 / 2 ^ a.l3)) with
    | fin m => exact ⟨m, rfl⟩
    | _ => rw [hx] at this; exact this.elim
  -- the object and its calls
  have hW' : ∀ᵐ ω ∂μ, ∃ f, ((g.withStream fun i => ξ i ω).generate p n).1 = .ok f ∧
      ∀ (r : Fin g.Nx) (b : Fin g.Ny) (c : Fin g.Nz), ∃ w, f.val? (j * g.Nx + r) b c = some w ∧
        w 0 = fin (W j ω (r, b, c, 0)) + Spec.meanWind p (c * (a.d3 / 2 ^ a.l3)) ∧ w 1 = fin (W j ω (r, b, c, 1)) ∧
        w 2 = fin (W j ω (r, b, c, 2)) := by
    filter_upwards [hW] with ω h2
    obtain ⟨g2, e2, c2⟩ := h2
    rw [genInit_stream hinit] at e2
    obtain rfl := Except.ok.inj (Prod.mk.inj e2).1
    obtain ⟨f, hf, -, hval⟩ := c2 [] (fun c hc => by cases hc) p n hv
    refine ⟨f, hf, fun r b c => ?_⟩
    have := hval j hj r b c
    simpa only [List.map_nil, List.sum_nil, zero_add] using this
  -- a bounded normal value is constant
  have hconst : ∀ x, ∀ᵐ ω ∂μ, W j ω x = 0 := by
    rintro ⟨r, b, c, k⟩
    obtain ⟨m', v, hmv⟩ := hall r r.isLt b b.isLt c c.isLt k
    obtain ⟨mw, hmw⟩ := hfin' c c.isLt
    set M : ℝ := if k = 0 then mw else 0 with hM
    have hae : (fun ω => Spec.readOut ((g.withStream fun i => ξ i ω).generate p n).1 (j * g.Nx + r) b c k) =ᵐ[μ]
        fun ω => W j ω (r, b, c, k) + M := by
      filter_upwards [hW'] with ω hω
      obtain ⟨f, hf, hval⟩ := hω
      obtain ⟨w, hw, w0, w1, w2⟩ := hval r b c
      unfold Spec.readOut
      rw [hf]
      simp only
      rw [hw, Option.map_some, Option.getD_some]
      rw [hmw] at w0
      fin_cases k
      · change (w 0).toReal = _
        rw [w0, hM]; simp
      · change (w 1).toReal = _
        rw [w1, hM]; simp
      · change (w 2).toReal = _
        rw [w2, hM]; simp
    have hmW : Measurable fun ω => W j ω (r, b, c, k) := (measurable_pi_apply _).comp (hWm j)
    have hmW' : Measurable fun ω => W j ω (r, b, c, k) + M := hmW.add_const M
    rw [Measure.map_congr hae] at hmv
    have hv0 : v = 0 := by
      by_contra hv0
      set B := Real.sqrt (g.Nx * g.Ny * g.Nz * 3 : ℕ) + M with hB
      have h0 : gaussianReal m' v (Set.Ioi B) = 0 := by
        rw [← hmv, Measure.map_apply hmW' measurableSet_Ioi]
        have : (fun ω => W j ω (r, b, c, k) + M) ⁻¹' Set.Ioi B = ∅ := by
          ext ω
          simp only [Set.mem_preimage, Set.mem_Ioi, Set.mem_empty_iff_false, iff_false, not_lt, hB]
          have := (le_abs_self _).trans (hWb j ω (r, b, c, k))
          linarith
        rw [this, measure_empty]
      have := gaussianReal_absolutelyContinuous' m' hv0 h0
      simp at this
    subst hv0
    rw [gaussianReal_zero_var] at hmv
    have hint : Integrable (fun ω => W j ω (r, b, c, k)) μ :=
      Integrable.of_bound hmW.aestronglyMeasurable _
        (Eventually.of_forall fun ω => by rw [Real.norm_eq_abs]; exact hWb j ω _)
    have hm0 : m' = M := by
      have h1 := integral_map (μ := μ) hmW'.aemeasurable (f := fun x : ℝ => x) measurable_id.aestronglyMeasurable
      rw [hmv, integral_dirac, integral_add hint (integrable_const _), hmean hsym] at h1
      simpa using h1
    subst hm0
    have : μ.map (fun ω => W j ω (r, b, c, k) + M) {M}ᶜ = 0 := by rw [hmv]; simp
    rw [Measure.map_apply hmW' (measurableSet_singleton M).compl] at this
    have h2 : ∀ᵐ ω ∂μ, W j ω (r, b, c, k) + M = M := this
    filter_upwards [h2] with ω hω
    linarith
  -- but the mean square of a block is one
  have hone : ∀ᵐ ω ∂μ, ∃ x, W j ω x ≠ 0 := by
    filter_upwards [hW'] with ω h2
    obtain ⟨f, hf, hval⟩ := h2
    have e2 := genInit_stream hinit fun i => ξ i ω
    obtain ⟨v, hv1, hv2⟩ := C55_field hp e2 hlow [] p n hf j hj
    have hfresh : (((g.withStream fun i => ξ i ω).run []).2.total.planes.length) = 0 := by
      obtain ⟨-, -, -, -, hfr, -⟩ := genInit_ok e2
      change (g.withStream fun i => ξ i ω).total.planes.length = 0
      rw [hfr.2.2.2]; rfl
    by_contra hzero
    push Not at hzero
    have hz : ∀ r < g.Nx, ∀ b < g.Ny, ∀ c < g.Nz, ∀ k, v r b c k = 0 := by
      intro r hr b hb c hc k
      obtain ⟨w, hw, w0, w1, w2⟩ := hv1 r hr b hb c hc
      rw [hfresh, zero_add] at hw
      obtain ⟨w', hw', w0', w1', w2'⟩ := hval ⟨r, hr⟩ ⟨b, hb⟩ ⟨c, hc⟩
      simp only [hzero] at w0' w1' w2'
      have hw2 : f.val? (j * g.Nx + r) b c = some w := hw
      rw [hw2] at hw'
      obtain rfl := Option.some.inj hw'
      fin_cases k
      · obtain ⟨m, hm⟩ := hfin' c hc
        rw [hm] at w0'
        rw [w0'] at w0
        have hm' : (if p.ptype = "LOG" then logLaw (c * (a.d3 / 2 ^ a.l3)) p.z0 p.zref p.uref
          else powerLaw (c * (a.d3 / 2 ^ a.l3)) p.zref p.uref (p.plexp.getD 0)) = fin m := hm
        rw [hm'] at w0
        simp only [fin_add_fin, fin.injEq, zero_add] at w0
        change v r b c 0 = 0
        linarith
      · have := w1.symm.trans w1'
        simpa using this
      · have := w2.symm.trans w2'
        simpa using this
    have : (∑ r ∈ Finset.range g.Nx, ∑ b ∈ Finset.range g.Ny, ∑ c ∈ Finset.range g.Nz, ∑ k, v r b c k ^ 2) = 0 := by
      refine Finset.sum_eq_zero fun r hr => Finset.sum_eq_zero fun b hb => Finset.sum_eq_zero fun c hc =>
        Finset.sum_eq_zero fun k _ => ?_
      rw [hz r (Finset.mem_range.1 hr) b (Finset.mem_range.1 hb) c (Finset.mem_range.1 hc) k]
      ring
    have hv3 : (∑ r ∈ Finset.range g.Nx, ∑ b ∈ Finset.range g.Ny, ∑ c ∈ Finset.range g.Nz, ∑ k, v r b c k ^ 2) /
        (g.Nx * g.Ny * g.Nz * 3 : ℕ) = 1 := hv2
    rw [this, zero_div] at hv3
    exact zero_ne_one hv3
  have : ∀ᵐ ω ∂μ, False := by
    filter_upwards [ae_all_iff.2 hconst, hone] with ω h1 ⟨x, h2⟩
    exact h2 (h1 x)
  exact (this.exists).elim fun _ h => h

end

/-- Streams, arguments and profiles meeting the hypotheses of the theorems of C98 and C99. -/
example (env : GenEnv) :
    Spec.WhiteStream (Measure.infinitePi fun _ : ℕ => gaussianReal 0 1) (fun n (ω : ℕ → ℝ) => ω n) ∧
    Spec.Stream (Measure.infinitePi fun _ : ℕ => gaussianReal 0 1) (fun n (ω : ℕ → ℝ) => ω n) (gaussianReal 0 1) ∧
    (∃ g, genInit env exampleArgs = (.ok g, env.globPos) ∧ g.kernel.Valid ∧ 0 < g.shape1.toNat ∧ 0 < g.shape2.toNat ∧
      0 < g.shape3.toNat) ∧
    (⟨90, 10, 0.1, "LOG", none⟩ : ProfileArgs).Valid ∧
    ∀ c : ℕ, (Spec.meanWind ⟨90, 10, 0.1, "LOG", none⟩ (c * (exampleArgs.d3 / 2 ^ exampleArgs.l3))).IsFin := by
  have hs : Spec.Stream (Measure.infinitePi fun _ : ℕ => gaussianReal 0 1) (fun n (ω : ℕ → ℝ) => ω n) (gaussianReal 0 1) :=
    ⟨fun n => measurable_pi_apply n,
      iIndepFun_infinitePi (P := fun _ => gaussianReal 0 1) (X := fun _ x => x) fun _ => measurable_id,
      fun n => Measure.infinitePi_map_eval (fun _ => gaussianReal 0 1) n⟩
  obtain ⟨h1, h2, ⟨g, hg, hK⟩, -⟩ := exampleArgs_physical env
  obtain ⟨-, -, -, p1, p2, p3, -⟩ := (genInit_good h1 hg).shapes
  refine ⟨hs.white, hs, ⟨g, hg, hK, p1, p2, p3⟩, ⟨Or.inl rfl, by norm_num, by norm_num, by norm_num⟩, fun c => ?_⟩
  unfold Spec.meanWind
  rw [if_pos rfl]
  refine (C57_log (by norm_num) (by norm_num) (by norm_num)).2.2.1 _ ?_
  norm_num [exampleArgs]

end
end Verif
