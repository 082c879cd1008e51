import Verif.Props.GeneratorFields
import Mathlib.Probability.Independence.Basic
import Mathlib.Probability.Independence.InfinitePi
import Mathlib.Probability.Distributions.Gaussian.Real

/-!
# Random streams: a generated block vanishes with probability zero (C85)
-/

namespace Verif
open Fl

noncomputable section
open Classical

/-! ### The field at a point is a non-zero linear function of the noise -/

section
variable {n1 n2 n3 : ℕ} [NeZero n1] [NeZero n2] [NeZero n3]

/-- Admissible parameters with positive energy. -/
def GenKernel.Energetic : GenKernel → Prop
  | .vk _ E0 => 0 < E0
  | .mann _ _ E0 _ => 0 < E0
  | .nn _ _ E0 _ _ => 0 < E0

/-- The entry of the spectral square root that is proportional to the second wavenumber. -/
theorem GenKernel.entry02 {K : GenKernel} (h : K.Valid) (he : K.Energetic) {k : K3} (hk : k.k2 ≠ 0) :
    times1j (K.eval k) 0 2 ≠ 0 := by
  unfold times1j
  refine mul_ne_zero Complex.I_ne_zero ?_
  cases K with
  | vk L E0 =>
    obtain ⟨hL, hE⟩ := h
    have hc := kernelConst_fin hL hE (kkR_nonneg k)
    have : GenKernel.eval (.vk L E0) k 0 2 = fin (constR L E0 (kkR k) * k.k2) := by
      simp only [GenKernel.eval, vkKernel, kkR_pow, hc, crossMat, fin_mul_fin]
    rw [this, toReal_fin]
    exact_mod_cast mul_ne_zero (constR_pos hL he (kkR_nonneg k)).ne' hk
  | mann hyp L E0 G =>
    obtain ⟨hL, hE, hh⟩ := h
    simp only [GenKernel.eval, mannKernel]
    rw [mannBeta_eq G hL hh, shearKernel_fin hL hE, toReal_fin]
    exact_mod_cast mul_ne_zero (constR_pos hL he (kk0R_nonneg k _)).ne' hk
  | nn net L E0 G hr =>
    obtain ⟨hL, hE, hn, hh⟩ := h
    obtain ⟨b, hb⟩ := nnBeta_fin hn G hh k
    simp only [GenKernel.eval, nnKernel]
    rw [hb, shearKernel_fin hL hE, toReal_fin]
    exact_mod_cast mul_ne_zero (constR_pos hL he (kk0R_nonneg k _)).ne' hk

/-- Some noise gives a non-zero first component at a given point. -/
theorem vfSample_ne {K : GenKernel} (h : K.Valid) (he : K.Energetic) (hn : 3 ≤ n2) {L1 L2 L3 norm : ℝ} (hL : L2 ≠ 0)
    (hnorm : norm ≠ 0) (x : Box n1 n2 n3) :
    ∃ noise, vfSample (spectrumOf K.eval L1 L2 L3) norm noise x 0 ≠ 0 := by
  by_contra hall
  push Not at hall
  set S : Box n1 n2 n3 → Matrix (Fin 3) (Fin 3) ℂ := spectrumOf K.eval L1 L2 L3 with hS
  have hz : ∀ noise y, vfSample S norm noise y 0 = 0 := by
    intro noise y
    have := C61_shift S norm noise (y - x) x 0
    rw [hall, add_sub_cancel] at this
    exact this.symm
  set δ : Box n1 n2 n3 → Fin 3 → ℝ := fun x l => if x = 0 ∧ l = 2 then (1 : ℝ) else 0 with hδ
  have hv1 : ((1 : ZMod n2)).val = 1 := by
    have : Fact (1 < n2) := ⟨by omega⟩
    exact ZMod.val_one n2
  set k : Box n1 n2 n3 := (0, 1, 0) with hk
  have hny : NonNyquist k := by
    refine ⟨?_, ?_, ?_⟩
    · simp only [hk, ZMod.val_zero]; have := NeZero.ne n1; omega
    · simp only [hk, hv1]; omega
    · simp only [hk, ZMod.val_zero]; have := NeZero.ne n3; omega
  have hf := fftn_vfSample S norm δ 0 k
  simp only [hz] at hf
  have h0 : fftn (fun _ : Box n1 n2 n3 => ((0 : ℝ) : ℂ)) k = 0 := by unfold fftn; simp
  rw [h0, herm_of_hermitian (vfY_neg (spectrum_hermitian h hny) δ 0)] at hf
  have hy : vfY S δ 0 k = S k 0 2 * (Real.sqrt (voxels n1 n2 n3) : ℂ) := by
    unfold vfY
    simp only [hδ, noiseHat_delta]
    rw [Finset.sum_eq_single (2 : Fin 3) (fun l _ hl => by rw [if_neg hl, mul_zero]) (by simp), if_pos rfl, mul_one]
    rfl
  rw [hy] at hf
  have hfr : (freqOf L1 L2 L3 k).k2 ≠ 0 := by
    unfold freqOf
    simp only [hk]
    have : fftIdx n2 (1 : ZMod n2) = 1 := by unfold fftIdx; rw [hv1, if_pos (by omega)]; norm_num
    rw [this]
    have := Real.pi_pos
    simp only [Int.cast_one, mul_one]
    exact div_ne_zero (by positivity) hL
  have hS0 : S k 0 2 ≠ 0 := K.entry02 h he hfr
  have hv : (Real.sqrt (voxels n1 n2 n3) : ℂ) ≠ 0 := by
    have : (0 : ℝ) < voxels n1 n2 n3 := by
      unfold voxels
      have a1 := NeZero.pos n1
      have a2 := NeZero.pos n2
      have a3 := NeZero.pos n3
      positivity
    exact_mod_cast (Real.sqrt_pos.2 this).ne'
  have hnc : (norm : ℂ) ≠ 0 := by exact_mod_cast hnorm
  exact div_ne_zero (mul_ne_zero hS0 hv) hnc hf.symm

/-- The coefficients of the field at a point. -/
theorem vfSample_coeff (S : Box n1 n2 n3 → Matrix (Fin 3) (Fin 3) ℂ) (norm : ℝ) (x : Box n1 n2 n3) (i : Fin 3) :
    ∃ c : Box n1 n2 n3 × Fin 3 → ℝ, ∀ noise, vfSample S norm noise x i = ∑ w, c w * noise w.1 w.2 := by
  have hadd : ∀ f g : Box n1 n2 n3 × Fin 3 → ℝ, vfSample S norm (fun z l => (f + g) (z, l)) x i =
      vfSample S norm (fun z l => f (z, l)) x i + vfSample S norm (fun z l => g (z, l)) x i := by
    intro f g
    have := C61_linear S norm 1 1 (fun z l => f (z, l)) (fun z l => g (z, l)) x i
    simpa using this
  have hsmul : ∀ (r : ℝ) (f : Box n1 n2 n3 × Fin 3 → ℝ), vfSample S norm (fun z l => (r • f) (z, l)) x i =
      r * vfSample S norm (fun z l => f (z, l)) x i := by
    intro r f
    have := C61_linear S norm r 0 (fun z l => f (z, l)) (fun z l => f (z, l)) x i
    simpa using this
  let F : (Box n1 n2 n3 × Fin 3 → ℝ) →ₗ[ℝ] ℝ :=
    { toFun := fun f => vfSample S norm (fun z l => f (z, l)) x i
      map_add' := hadd
      map_smul' := hsmul }
  refine ⟨fun w => F (fun w' => if w = w' then 1 else 0), fun noise => ?_⟩
  have := LinearMap.pi_apply_eq_sum_univ F fun w => noise w.1 w.2
  change F (fun w => noise w.1 w.2) = _
  rw [this]
  exact Finset.sum_congr rfl fun w _ => by rw [smul_eq_mul, mul_comm]

end

/-! ### A non-zero combination of independent values without atoms -/

open MeasureTheory ProbabilityTheory in
/-- A non-zero linear combination of independent random values without atoms is almost surely not zero. -/
theorem combination_ne_zero {Ω ι : Type} [MeasurableSpace Ω] {μ : Measure Ω} [IsProbabilityMeasure μ] [Fintype ι]
    {X : ι → Ω → ℝ} (hm : ∀ i, Measurable (X i)) (hi : iIndepFun X μ) (ha : ∀ i x, μ {ω | X i ω = x} = 0)
    {c : ι → ℝ} {i0 : ι} (hc : c i0 ≠ 0) : ∀ᵐ ω ∂μ, ∑ i, c i * X i ω ≠ 0 := by
  -- scaled variables
  have hi' : iIndepFun (fun i ω => c i * X i ω) μ :=
    hi.comp (fun i x => c i * x) fun i => measurable_const.mul measurable_id
  have hm' : ∀ i, Measurable (fun ω => c i * X i ω) := fun i => measurable_const.mul (hm i)
  have hind := hi'.indepFun_finsetSum_of_notMem hm' (s := Finset.univ.erase i0) (i := i0) (by simp)
  set Y : Ω → ℝ := ∑ j ∈ Finset.univ.erase i0, fun ω => c j * X j ω with hY
  have hYm : Measurable Y := by
    have := Finset.measurable_sum (Finset.univ.erase i0) fun j _ => hm' j
    convert this using 1
    funext ω
    simp only [hY, Finset.sum_apply]
  have hmap := (indepFun_iff_map_prod_eq_prod_map_map hYm.aemeasurable (hm' i0).aemeasurable).1 hind
  have hset : MeasurableSet {p : ℝ × ℝ | p.1 + p.2 = 0} :=
    measurableSet_eq_fun (measurable_fst.add measurable_snd) measurable_const
  have hnull : ((μ.map Y).prod (μ.map fun ω => c i0 * X i0 ω)) {p : ℝ × ℝ | p.1 + p.2 = 0} = 0 := by
    rw [Measure.measure_prod_null hset]
    refine Filter.Eventually.of_forall fun y => ?_
    have hs : MeasurableSet (Prod.mk y ⁻¹' {p : ℝ × ℝ | p.1 + p.2 = 0}) := measurable_prodMk_left hset
    simp only [Pi.zero_apply]
    rw [Measure.map_apply (hm' i0) hs, ← ha i0 (-y / c i0)]
    congr 1
    ext ω
    simp only [Set.mem_preimage, Set.mem_ofPred_eq]
    constructor
    · intro h; field_simp; linarith
    · intro h; rw [h]; field_simp; ring
  rw [← hmap, Measure.map_apply (hYm.prodMk (hm' i0)) hset] at hnull
  rw [ae_iff]
  refine le_antisymm (le_trans (measure_mono ?_) hnull.le) zero_le
  intro ω h
  simp only [Set.mem_ofPred_eq, not_not] at h
  simp only [Set.mem_preimage, Set.mem_ofPred_eq, hY, Finset.sum_apply]
  rw [Finset.sum_erase_add _ _ (Finset.mem_univ i0)]
  exact h

/-! ### The generator -/

/-- Positive sizes of the periodic box, and non-zero noise amplitude. -/
def Gen.Regular (g : Gen) : Prop :=
  0 < g.rf.L.getD 0 0 ∧ 0 < g.rf.L.getD 1 0 ∧ 0 < g.rf.L.getD 2 0 ∧ g.rf.noiseStd ≠ 0

theorem genInit_regular {env : GenEnv} {a : GenArgs} {g : Gen} {q : ℕ} (hd : 0 < a.d1 ∧ 0 < a.d2 ∧ 0 < a.d3)
    (h : genInit env a = (.ok g, q)) : g.Regular := by
  obtain ⟨-, -, -, -, -, -, -, -, -, -, -, -, ⟨s1, s2, s3⟩, hr, -⟩ := genInit_ok h
  obtain ⟨d1, d2, d3⟩ := hd
  have hr' := Except.ok.inj hr
  unfold Gen.Regular
  rw [← hr']
  have p1 : (0 : ℝ) < g.shape1.toNat := by exact_mod_cast (by omega : 0 < g.shape1.toNat)
  have p2 : (0 : ℝ) < g.shape2.toNat := by exact_mod_cast (by omega : 0 < g.shape2.toNat)
  have p3 : (0 : ℝ) < g.shape3.toNat := by exact_mod_cast (by omega : 0 < g.shape3.toNat)
  refine ⟨?_, ?_, ?_, ?_⟩
  · change 0 < a.d1 / (2 ^ a.l1 + 1) * (g.shape1.toNat : ℝ); positivity
  · change 0 < a.d2 / (2 ^ a.l2 + 1) * (g.shape2.toNat : ℝ); positivity
  · change 0 < a.d3 / (2 ^ a.l3 + 1) * (g.shape3.toNat : ℝ); positivity
  · refine (Real.sqrt_pos.2 ?_).ne'
    change 0 < a.d1 / (2 ^ a.l1 + 1) * (a.d2 / (2 ^ a.l2 + 1) * (a.d3 / (2 ^ a.l3 + 1) * 1)); positivity

/-- Place in the random stream of component `w.2` at point `w.1` of the noise buffer of block `j`. -/
def Gen.place (g : Gen) (j : ℕ) (w : Box g.shape1.toNat g.shape2.toNat g.shape3.toNat × Fin 3) : ℕ :=
  (((j * g.Nx + w.1.1.val) * g.shape2.toNat + w.1.2.1.val) * g.shape3.toNat + w.1.2.2.val) * 3 + w.2.val

theorem digits_inj {n a b a' b' : ℕ} (hb : b < n) (hb' : b' < n) (h : a * n + b = a' * n + b') : a = a' ∧ b = b' := by
  have hn : 0 < n := by omega
  have e1 : (a * n + b) / n = a := by rw [mul_comm, Nat.mul_add_div hn, Nat.div_eq_of_lt hb, add_zero]
  have e2 : (a' * n + b') / n = a' := by rw [mul_comm, Nat.mul_add_div hn, Nat.div_eq_of_lt hb', add_zero]
  have : a = a' := by rw [← e1, ← e2, h]
  subst this
  exact ⟨rfl, by omega⟩

theorem Gen.place_inj {g : Gen} (h : g.Good) (j : ℕ) : Function.Injective (g.place j) := by
  obtain ⟨-, -, -, p1, p2, p3, -⟩ := h.shapes
  have : NeZero g.shape1.toNat := ⟨p1.ne'⟩
  have : NeZero g.shape2.toNat := ⟨p2.ne'⟩
  have : NeZero g.shape3.toNat := ⟨p3.ne'⟩
  rintro ⟨⟨a, b, c⟩, i⟩ ⟨⟨a', b', c'⟩, i'⟩ he
  unfold Gen.place at he
  simp only at he
  obtain ⟨he, e4⟩ := digits_inj i.isLt i'.isLt he
  obtain ⟨he, e3⟩ := digits_inj (ZMod.val_lt c) (ZMod.val_lt c') he
  obtain ⟨he, e2⟩ := digits_inj (ZMod.val_lt b) (ZMod.val_lt b') he
  have e1 : a.val = a'.val := by omega
  rw [ZMod.val_injective _ e1, ZMod.val_injective _ e2, ZMod.val_injective _ e3, Fin.ext e4]

/-- The same object with another random stream. -/
def Gen.withStream (g : Gen) (γ : ℕ → ℝ) : Gen := { g with gauss := γ }

/-- The first component at the first point of every block is one and the same non-zero combination of the values of the
random stream, taken at distinct places. -/
theorem block_functional {g : Gen} (hg : g.Good) (hr : g.Regular) (hK : g.kernel.Valid) (hE : g.kernel.Energetic)
    [NeZero g.shape1.toNat] [NeZero g.shape2.toNat] [NeZero g.shape3.toNat] :
    ∃ c : Box g.shape1.toNat g.shape2.toNat g.shape3.toNat × Fin 3 → ℝ, (∃ w, c w ≠ 0) ∧
      ∀ (γ : ℕ → ℝ) (j : ℕ), ((g.withStream γ).block j).entry 0 0 0 0 = ∑ w, c w * γ (g.place j w) := by
  obtain ⟨r1, r2, r3, r4⟩ := hr
  obtain ⟨e1, e2, e3, p1, p2, p3, q1, q2, q3⟩ := hg.shapes
  have hg' := hg
  obtain ⟨g1, g2, g3⟩ := hg
  have hb := blendExt_nonneg g.bn
  have hny : 2 ≤ g.Ny := by unfold Gen.Ny; have := Nat.one_le_two_pow (n := g.l2); omega
  set x : Box g.shape1.toNat g.shape2.toNat g.shape3.toNat := ((g.nb.toNat : ℕ), (g.my.toNat : ℕ), ((0 : ℕ) : ZMod _)) with hx
  set S : Box g.shape1.toNat g.shape2.toNat g.shape3.toNat → Matrix (Fin 3) (Fin 3) ℂ :=
    spectrumOf g.kernel.eval (g.rf.L.getD 0 0) (g.rf.L.getD 1 0) (g.rf.L.getD 2 0) with hS
  set nrm := transformNorm (g.rf.L.getD 0 0) (g.rf.L.getD 1 0) (g.rf.L.getD 2 0) with hnrm
  have hn0 : nrm ≠ 0 := by rw [hnrm]; unfold transformNorm; exact (Real.sqrt_pos.2 (by positivity)).ne'
  obtain ⟨c, hc⟩ := vfSample_coeff S nrm x 0
  obtain ⟨noise, hne⟩ := vfSample_ne (n1 := g.shape1.toNat) (n3 := g.shape3.toNat) hK hE (by omega : 3 ≤ g.shape2.toNat)
    (L1 := g.rf.L.getD 0 0) (L3 := g.rf.L.getD 2 0) r2.ne' hn0 x
  rw [hc] at hne
  refine ⟨fun w => c w * g.rf.noiseStd, ?_, ?_⟩
  · by_contra hall
    push Not at hall
    apply hne
    refine Finset.sum_eq_zero fun w _ => ?_
    have := (mul_eq_zero.1 (hall w)).resolve_right r4
    rw [this, zero_mul]
  · intro γ j
    have hG : (g.withStream γ).Good := hg'
    unfold Gen.block
    rw [ofFn_entry _ (show 0 < (g.withStream γ).Nx from q1) (show 0 < (g.withStream γ).Ny from q2)
      (show 0 < (g.withStream γ).Nz from q3)]
    unfold Gen.sample
    simp only
    rw [dif_pos ⟨p1, p2, p3⟩, add_zero, add_zero]
    have a1 : (g.withStream γ).nb.toNat < (g.withStream γ).shape1.toNat := by
      change g.nb.toNat < g.shape1.toNat; omega
    have a2 : (g.withStream γ).my.toNat < (g.withStream γ).shape2.toNat := by
      change g.my.toNat < g.shape2.toNat; omega
    rw [ofFn_entry _ a1 a2 (show 0 < (g.withStream γ).shape3.toNat from p3)]
    have := hc fun x i => ((g.withStream γ).window j).entry x.1.val x.2.1.val x.2.2.val i
    refine Eq.trans this ?_
    refine Finset.sum_congr rfl fun w _ => ?_
    have hw : ((g.withStream γ).window j).entry w.1.1.val w.1.2.1.val w.1.2.2.val w.2 = γ (g.place j w) * g.rf.noiseStd := by
      have hwin : (g.withStream γ).window j = Arr.ofFn g.shape1.toNat g.shape2.toNat g.shape3.toNat fun a b c i =>
          γ ((((j * g.Nx + a) * g.shape2.toNat + b) * g.shape3.toNat + c) * 3 + i.val) * g.rf.noiseStd := rfl
      rw [hwin, ofFn_entry _ (ZMod.val_lt _) (ZMod.val_lt _) (ZMod.val_lt _)]
      rfl
    rw [hw]
    ring

open MeasureTheory ProbabilityTheory in
/-- With independent values without atoms, almost surely no block vanishes. -/
theorem blocks_any {Ω : Type} [MeasurableSpace Ω] {μ : Measure Ω} [IsProbabilityMeasure μ] {ξ : ℕ → Ω → ℝ}
    (hm : ∀ n, Measurable (ξ n)) (hi : iIndepFun ξ μ) (ha : ∀ n x, μ {ω | ξ n ω = x} = 0) {g : Gen} (hg : g.Good)
    (hr : g.Regular) (hK : g.kernel.Valid) (hE : g.kernel.Energetic) :
    ∀ᵐ ω ∂μ, ∀ j, ((g.withStream fun n => ξ n ω).block j).any := by
  obtain ⟨-, -, -, p1, p2, p3, q1, q2, q3⟩ := hg.shapes
  have : NeZero g.shape1.toNat := ⟨p1.ne'⟩
  have : NeZero g.shape2.toNat := ⟨p2.ne'⟩
  have : NeZero g.shape3.toNat := ⟨p3.ne'⟩
  obtain ⟨c, ⟨w0, hw0⟩, hc⟩ := block_functional hg hr hK hE
  rw [ae_all_iff]
  intro j
  filter_upwards [combination_ne_zero (fun w => hm (g.place j w)) (hi.precomp (Gen.place_inj hg j))
    (fun w x => ha (g.place j w) x) hw0] with ω hω
  rw [← hc (fun n => ξ n ω) j] at hω
  unfold Gen.block at hω ⊢
  rw [any_ofFn]
  refine ⟨0, q1, 0, q2, 0, q3, 0, ?_⟩
  rwa [ofFn_entry _ (show 0 < (g.withStream fun n => ξ n ω).Nx from q1) (show 0 < (g.withStream fun n => ξ n ω).Ny from q2)
    (show 0 < (g.withStream fun n => ξ n ω).Nz from q3)] at hω

/-- The same surroundings with another stream of random numbers for the generator. -/
def GenEnv.withStream (env : GenEnv) (γ : ℕ → ℝ) : GenEnv := { env with seeded := fun _ => γ, entropy := γ }

theorem genInit_stream {env : GenEnv} {a : GenArgs} {g : Gen} {q : ℕ} (h : genInit env a = (.ok g, q)) (γ : ℕ → ℝ) :
    genInit (env.withStream γ) a = (.ok (g.withStream γ), q) := by
  have e : genScales (env.withStream γ) a = genScales env a := rfl
  unfold genInit at h ⊢
  rw [e]
  cases hs : genScales env a with
  | error e => rw [hs] at h; simp at h
  | ok r =>
    obtain ⟨K, L, T⟩ := r
    rw [hs] at h
    simp only at h ⊢
    rcases hsd : a.seed with _ | sd
    all_goals
      rw [hsd] at h
      simp only at h ⊢
      split at h <;> try (simp at h; done)
      split at h
      · simp at h
      rename_i hsh
      rw [if_neg hsh]
      split at h
      · simp at h
      rcases hl : a.low with _ | cfg
      · rw [hl] at h
        simp only [Prod.mk.injEq, Except.ok.injEq] at h ⊢
        exact ⟨by rw [← h.1]; rfl, h.2⟩
      · rw [hl] at h
        simp only at h ⊢
        split at h
        · simp at h
        have eg : (env.withStream γ).glob = env.glob := rfl
        have ep : (env.withStream γ).globPos = env.globPos := rfl
        rw [eg, ep]
        split at h
        · simp at h
        simp only [Prod.mk.injEq, Except.ok.injEq] at h ⊢
        exact ⟨by rw [← h.1]; rfl, h.2⟩

/-- Arguments that give positive energy: non-zero friction velocity, positive height and (unless a trained model is loaded)
positive spectrum amplitude. -/
def GenArgs.PosEnergy (a : GenArgs) : Prop :=
  a.ustar ≠ 0 ∧ 0 < a.zref ∧ (a.model ≠ "DRD" → ∀ e, a.energy = some e → 0 < e)

theorem genScales_energetic {env : GenEnv} {a : GenArgs} (ha : a.PosEnergy) {K : GenKernel} {L T : ℝ}
    (h : genScales env a = .ok (K, L, T)) : K.Energetic := by
  obtain ⟨hu, hz, he⟩ := ha
  have hu2 : 0 < a.ustar ^ 2 := by positivity
  have hzp : 0 < a.zref ^ (-2 / 3 : ℝ) := Real.rpow_pos_of_pos hz _
  unfold genScales at h
  by_cases h1 : a.model ∉ ["DRD", "VK", "Mann"]
  · rw [if_pos h1] at h; cases h
  rw [if_neg h1] at h
  by_cases h2 : a.model = "DRD"
  · rw [if_pos h2] at h
    cases hp : a.path with
    | none => rw [hp] at h; cases h
    | some f =>
    rw [hp] at h
    simp only at h
    cases hm : loadModel env.hyp env.netSeed env.netNoise f env.fs with
    | error e => rw [hm] at h; cases h
    | ok ops =>
    rw [hm] at h
    simp only [heightPower_pos hz] at h
    cases hk : ops.kind with
    | taunet net =>
      rw [hk] at h
      simp only [Except.ok.injEq, Prod.mk.injEq] at h
      obtain ⟨rfl, -, -⟩ := h
      unfold GenKernel.Energetic OPS.expScalesValue
      simp only
      have := Real.pi_pos
      positivity
    | _ => rw [hk] at h; cases h
  · rw [if_neg h2] at h
    cases hl : a.length with
    | none => rw [hl] at h; cases h
    | some L' =>
    cases ht : a.time with
    | none => rw [hl, ht] at h; cases h
    | some T' =>
    cases hen : a.energy with
    | none => rw [hl, ht, hen] at h; cases h
    | some e =>
    rw [hl, ht, hen] at h
    simp only [heightPower_pos hz, Except.ok.injEq, Prod.mk.injEq] at h
    have hep := he h2 e hen
    obtain ⟨rfl, -, -⟩ := h
    split_ifs
    · unfold GenKernel.Energetic; simp only; positivity
    · unfold GenKernel.Energetic; simp only; positivity

/-! ### C85 -/

/-- All calls of a history succeed if no block vanishes and all profile arguments are valid. -/
theorem run_ok {g : Gen} (h : g.Good) (hl : g.LowReady) (hany : ∀ j, (g.block j).any) (cs : List (ℕ × ProfileArgs))
    (hv : ∀ c ∈ cs, c.2.Valid) : ∀ (j : ℕ) (tot : Arr Fl), tot.n2 = g.Ny ∧ tot.n3 = g.Nz →
      ∀ r ∈ (Gen.run cs (g.st j tot)).1, ∃ f, r = .ok f := by
  induction cs with
  | nil => intro j tot _ r hr; cases hr
  | cons c cs ih =>
    obtain ⟨n, p⟩ := c
    intro j tot ht r hr
    rcases generate_st h hl p n j ht with ⟨-, h2⟩ | ⟨k, -, -, h3, -⟩
    · unfold Gen.run at hr
      rw [h2] at hr
      simp only [List.mem_cons] at hr
      rcases hr with rfl | hr
      · exact ⟨_, rfl⟩
      · exact ih (fun c hc => hv c (List.mem_cons_of_mem _ hc)) (j + n) _ ⟨rfl, rfl⟩ r hr
    · exact absurd ⟨hany _, hv (n, p) List.mem_cons_self⟩ h3

open MeasureTheory ProbabilityTheory in
/-- **C85.**  For physical arguments (any of the three models, with or without a low-frequency part) and a random stream of
independent values without atoms - such as the normal values numpy draws - every sequence of `generate` calls with valid
profile arguments succeeds, with probability one: the check that the block is not identically zero never fires. -/
theorem C85_almost_surely {Ω : Type} [MeasurableSpace Ω] {μ : Measure Ω} [IsProbabilityMeasure μ] {ξ : ℕ → Ω → ℝ}
    (hm : ∀ n, Measurable (ξ n)) (hi : iIndepFun ξ μ) (ha : ∀ n x, μ {ω | ξ n ω = x} = 0) {env : GenEnv} {a : GenArgs}
    (hp : a.PosScales) (he : a.PosEnergy) {g : Gen} {q : ℕ} (h : genInit env a = (.ok g, q)) (hK : g.kernel.Valid) :
    ∀ᵐ ω ∂μ, ∃ g', genInit (env.withStream fun n => ξ n ω) a = (.ok g', q) ∧
      ∀ cs : List (ℕ × ProfileArgs), (∀ c ∈ cs, c.2.Valid) → ∀ r ∈ (g'.run cs).1, ∃ f, r = .ok f := by
  have hg := genInit_good hp h
  obtain ⟨K, L, T, hs, hf, hl, -, -, -, -, hk, -⟩ := genInit_ok h
  have hE : g.kernel.Energetic := by rw [hk]; exact genScales_energetic he hs
  filter_upwards [blocks_any hm hi ha hg (genInit_regular hp.1 h) hK hE] with ω hω
  refine ⟨_, genInit_stream h _, fun cs hv => ?_⟩
  have hf' : (g.withStream fun n => ξ n ω).Fresh := hf
  have := run_ok (g := g.withStream fun n => ξ n ω) hg hl hω cs hv 0 ⟨g.Ny, g.Nz, []⟩ ⟨rfl, rfl⟩
  rwa [show (g.withStream fun n => ξ n ω).st 0 ⟨g.Ny, g.Nz, []⟩ = g.withStream fun n => ξ n ω from hf'.st] at this

open MeasureTheory ProbabilityTheory in
/-- There is a stream for which no block vanishes: almost every sequence of independent normal values is one. -/
theorem exists_stream {g : Gen} (hg : g.Good) (hr : g.Regular) (hK : g.kernel.Valid) (hE : g.kernel.Energetic) :
    ∃ γ : ℕ → ℝ, ∀ j, ((g.withStream γ).block j).any := by
  let ν : ℕ → Measure ℝ := fun _ => gaussianReal 0 1
  have hi : iIndepFun (fun n (ω : ℕ → ℝ) => ω n) (Measure.infinitePi ν) :=
    iIndepFun_infinitePi (P := ν) (X := fun _ x => x) fun _ => measurable_id
  have hat : ∀ (n : ℕ) (x : ℝ), (Measure.infinitePi ν) {ω | ω n = x} = 0 := by
    intro n x
    have h1 : (Measure.infinitePi ν).map (fun ω => ω n) = ν n := Measure.infinitePi_map_eval ν n
    have h2 : ν n {x} = 0 := by
      have : NullSingletonClass (ν n) := nullSingletonClass_gaussianReal one_ne_zero
      exact measure_singleton x
    rw [← h1, Measure.map_apply (measurable_pi_apply n) (measurableSet_singleton x)] at h2
    exact h2
  have := blocks_any (fun n => measurable_pi_apply n) hi hat hg hr hK hE
  exact this.exists

/-! #### Without energy -/

/-- The spectral square root of a kernel without energy vanishes. -/
def GenKernel.Silent : GenKernel → Prop
  | .vk _ E0 => E0 = 0
  | .mann _ _ E0 _ => E0 = 0
  | .nn _ _ E0 _ _ => E0 = 0

theorem constR_zero (L kk : ℝ) : constR L 0 kk = 0 := by unfold constR; simp

theorem GenKernel.Silent.eval {K : GenKernel} (h : K.Valid) (hs : K.Silent) (k : K3) (i j : Fin 3) : times1j (K.eval k) i j = 0 := by
  have : (K.eval k i j).toReal = 0 := by
    cases K with
    | vk L E0 =>
      obtain ⟨hL, hE⟩ := h
      obtain rfl : E0 = 0 := hs
      have hc := kernelConst_fin hL hE (kkR_nonneg k)
      rw [constR_zero] at hc
      simp only [GenKernel.eval, vkKernel, kkR_pow, hc]
      fin_cases i <;> fin_cases j <;> simp [crossMat]
    | mann hyp L E0 G =>
      obtain ⟨hL, hE, hh⟩ := h
      obtain rfl : E0 = 0 := hs
      simp only [GenKernel.eval, mannKernel]
      rw [mannBeta_eq G hL hh, shearKernel_fin hL hE, constR_zero, zero_mul, toReal_fin]
    | nn net L E0 G hr =>
      obtain ⟨hL, hE, hn, hh⟩ := h
      obtain rfl : E0 = 0 := hs
      obtain ⟨b, hb⟩ := nnBeta_fin hn G hh k
      simp only [GenKernel.eval, nnKernel]
      rw [hb, shearKernel_fin hL hE, constR_zero, zero_mul, toReal_fin]
  unfold times1j
  rw [this, Complex.ofReal_zero, mul_zero]

theorem genScales_silent {env : GenEnv} {a : GenArgs} (hu : a.ustar = 0) {K : GenKernel} {L T : ℝ}
    (h : genScales env a = .ok (K, L, T)) : K.Silent := by
  unfold genScales at h
  by_cases h1 : a.model ∉ ["DRD", "VK", "Mann"]
  · rw [if_pos h1] at h; cases h
  rw [if_neg h1] at h
  by_cases h2 : a.model = "DRD"
  · rw [if_pos h2] at h
    cases hp : a.path with
    | none => rw [hp] at h; cases h
    | some f =>
    rw [hp] at h
    simp only at h
    cases hm : loadModel env.hyp env.netSeed env.netNoise f env.fs with
    | error e => rw [hm] at h; cases h
    | ok ops =>
    rw [hm] at h
    cases hh : heightPower a.zref with
    | error e => simp only [hh] at h; cases h
    | ok z =>
    simp only [hh] at h
    cases hk : ops.kind with
    | taunet net =>
      rw [hk] at h
      simp only [Except.ok.injEq, Prod.mk.injEq] at h
      obtain ⟨rfl, -, -⟩ := h
      unfold GenKernel.Silent
      simp [hu]
    | _ => rw [hk] at h; cases h
  · rw [if_neg h2] at h
    cases hl : a.length with
    | none => rw [hl] at h; cases h
    | some L' =>
    cases ht : a.time with
    | none => rw [hl, ht] at h; cases h
    | some T' =>
    cases hen : a.energy with
    | none => rw [hl, ht, hen] at h; cases h
    | some e =>
    rw [hl, ht, hen] at h
    cases hh : heightPower a.zref with
    | error e => simp only [hh] at h; cases h
    | ok z =>
    simp only [hh, Except.ok.injEq, Prod.mk.injEq] at h
    obtain ⟨rfl, -, -⟩ := h
    split_ifs <;> unfold GenKernel.Silent <;> simp [hu]

/-- Blocks without energy are zero. -/
theorem block_silent {g : Gen} (hg : g.Good) (hK : g.kernel.Valid) (hs : g.kernel.Silent) (j : ℕ) : ¬ (g.block j).any := by
  obtain ⟨e1, e2, e3, p1, p2, p3, q1, q2, q3⟩ := hg.shapes
  obtain ⟨g1, g2, g3⟩ := hg
  have hb := blendExt_nonneg g.bn
  have : NeZero g.shape1.toNat := ⟨p1.ne'⟩
  have : NeZero g.shape2.toNat := ⟨p2.ne'⟩
  have : NeZero g.shape3.toNat := ⟨p3.ne'⟩
  unfold Gen.block
  rw [any_ofFn]
  rintro ⟨a, ha, b, hb', c, hc, i, hne⟩
  apply hne
  unfold Gen.sample
  simp only
  rw [dif_pos ⟨p1, p2, p3⟩]
  rw [ofFn_entry _ (by omega) (by omega) (by omega)]
  rw [vfSample_smul (S := fun _ => 0) (s := 0), zero_mul]
  intro k i l
  rw [Complex.ofReal_zero, zero_mul]
  exact GenKernel.Silent.eval hK hs _ i l

/-- **C85** (converse).  Without energy - friction velocity zero - every call that asks for at least one block raises
`ValueError`, whatever the model, the stream and the earlier calls. -/
theorem C85_no_energy {env : GenEnv} {a : GenArgs} (hp : a.PosScales) (hu : a.ustar = 0) {g : Gen} {q : ℕ}
    (h : genInit env a = (.ok g, q)) (hK : g.kernel.Valid) (cs : List (ℕ × ProfileArgs)) (p : ProfileArgs) (n : ℕ) :
    ((g.run cs).2.generate p (n + 1)).1 = .error .valueError := by
  have hg := genInit_good hp h
  obtain ⟨K, L, T, hs, hf, hl, -, -, -, -, hk, -⟩ := genInit_ok h
  have hS : g.kernel.Silent := by rw [hk]; exact genScales_silent hu hs
  obtain ⟨j', k', tot', e, ⟨s2, s3, -⟩, -⟩ := run_st hg hl cs 0 0 ⟨g.Ny, g.Nz, []⟩ (by simp [Arr.Shape])
  rw [hf.st] at e
  rw [e]
  rcases generate_st hg hl p (n + 1) j' (tot := tot') ⟨s2, s3⟩ with ⟨h1, -⟩ | ⟨k, -, -, -, h2⟩
  · exact absurd (h1 0 (by omega)).1 (block_silent hg hK hS _)
  · rw [h2]

/-- Constructor arguments meeting the hypotheses of `C85_almost_surely` (for any surroundings and any stream), and of
`C85_no_energy` when the friction velocity is set to zero. -/
theorem exampleArgs_physical (env : GenEnv) : exampleArgs.PosScales ∧ exampleArgs.PosEnergy ∧
    (∃ g, genInit env exampleArgs = (.ok g, env.globPos) ∧ g.kernel.Valid) ∧
    ∃ g, genInit env { exampleArgs with ustar := 0 } = (.ok g, env.globPos) ∧ g.kernel.Valid := by
  have hz : (0 : ℝ) < 180 := by norm_num
  have hex : ∀ u : ℝ, ∃ g, genInit env { exampleArgs with ustar := u } = (.ok g, env.globPos) ∧ g.kernel.Valid := by
    intro u
    obtain ⟨g, hg⟩ := genInit_exists env (a := { exampleArgs with ustar := u }) (Or.inl rfl) (L := 50) (T := 3) (e := 0.5)
      rfl rfl rfl (by norm_num [exampleArgs])
      ⟨by norm_num [exampleArgs], by norm_num [exampleArgs], by norm_num [exampleArgs]⟩ ⟨by norm_num, by norm_num⟩ rfl
    refine ⟨g, hg, ?_⟩
    obtain ⟨K, L, T, hs, -, -, -, -, -, -, hk, -⟩ := genInit_ok hg
    have : genScales env { exampleArgs with ustar := u } = .ok (.vk 50 (0.5 * u ^ 2 * (180 : ℝ) ^ (-2 / 3 : ℝ)), 50, 3) := by
      unfold genScales
      simp [exampleArgs, heightPower_pos hz]
    rw [this] at hs
    simp only [Except.ok.injEq, Prod.mk.injEq] at hs
    rw [hk, ← hs.1]
    exact ⟨by norm_num, by positivity⟩
  refine ⟨⟨⟨by norm_num [exampleArgs], by norm_num [exampleArgs], by norm_num [exampleArgs]⟩, fun h => ?_, fun _ => ?_⟩,
    ⟨by norm_num [exampleArgs], by norm_num [exampleArgs], fun _ e h => ?_⟩, hex 1.7, hex 0⟩
  · exact absurd h (by decide)
  · exact ⟨50, 3, rfl, rfl, by norm_num, by norm_num⟩
  · obtain rfl := Option.some.inj h
    norm_num

end
end Verif
