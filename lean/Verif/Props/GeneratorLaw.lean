import Verif.Props.GeneratorNoise
import Mathlib.Probability.IdentDistrib
import Mathlib.Probability.StrongLaw

/-!
# Statistics of the generated blocks (C97)

The random stream is a sequence of independent random values with one common law.  The blocks a generator without
low-frequency part produces are then a stationary sequence of random arrays: mean zero about the profile if the law is
symmetric, independent as soon as the noise windows do not meet, and averages along the wind of everything computed from one
block converge to the expected value.
-/

namespace Verif
open Fl

noncomputable section
open Classical MeasureTheory ProbabilityTheory Filter Topology

/-- Points and components of one block. -/
abbrev Gen.Cell (g : Gen) : Type := Fin g.Nx × Fin g.Ny × Fin g.Nz × Fin 3

/-- Values of block `j` before normalisation, as a function of the random stream. -/
def Gen.raw (g : Gen) (γ : ℕ → ℝ) (j : ℕ) (x : g.Cell) : ℝ := ((g.withStream γ).block j).entry x.1 x.2.1 x.2.2.1 x.2.2.2

/-- Normalised values of block `j`, as a function of the random stream. -/
def Gen.fluct (g : Gen) (γ : ℕ → ℝ) (j : ℕ) (x : g.Cell) : ℝ := g.raw γ j x / ((g.withStream γ).block j).sd

theorem block_ofFn (g : Gen) (j : ℕ) : g.block j = Arr.ofFn g.Nx g.Ny g.Nz fun a b c i => (g.block j).entry a b c i := by
  conv_lhs => unfold Gen.block
  refine ofFn_congr fun a ha b hb c hc => ?_
  funext i'
  unfold Gen.block
  rw [ofFn_entry _ ha hb hc]

/-- The normalisation is the root mean square over the cells. -/
theorem sd_cells (g : Gen) (γ : ℕ → ℝ) (j : ℕ) :
    ((g.withStream γ).block j).sd = Real.sqrt ((∑ x : g.Cell, g.raw γ j x ^ 2) / (g.Nx * g.Ny * g.Nz * 3 : ℕ)) := by
  have hb := block_ofFn (g.withStream γ) j
  unfold Arr.sd
  rw [hb, flat_length, flat_sum _ fun x => x ^ 2]
  congr 2
  rw [Fintype.sum_prod_type, ← Fin.sum_univ_eq_sum_range
    (fun a => ∑ b ∈ Finset.range (g.withStream γ).Ny, ∑ c ∈ Finset.range (g.withStream γ).Nz, ∑ i,
      ((g.withStream γ).block j).entry a b c i ^ 2) (g.withStream γ).Nx]
  refine Finset.sum_congr rfl fun a _ => ?_
  rw [Fintype.sum_prod_type, ← Fin.sum_univ_eq_sum_range
    (fun b => ∑ c ∈ Finset.range (g.withStream γ).Nz, ∑ i, ((g.withStream γ).block j).entry a b c i ^ 2) (g.withStream γ).Ny]
  refine Finset.sum_congr rfl fun b _ => ?_
  rw [Fintype.sum_prod_type, ← Fin.sum_univ_eq_sum_range
    (fun c => ∑ i, ((g.withStream γ).block j).entry a b c i ^ 2) (g.withStream γ).Nz]
  rfl

/-- Every value of every block is one and the same combination of the values of the random stream, taken at the places of
the window of the block. -/
theorem raw_linear {g : Gen} (hg : g.Good) [NeZero g.shape1.toNat] [NeZero g.shape2.toNat] [NeZero g.shape3.toNat] :
    ∃ c : g.Cell → Box g.shape1.toNat g.shape2.toNat g.shape3.toNat × Fin 3 → ℝ,
      ∀ (γ : ℕ → ℝ) (j : ℕ) (x : g.Cell), g.raw γ j x = ∑ w, c x w * γ (g.place j w) := by
  obtain ⟨e1, e2, e3, p1, p2, p3, q1, q2, q3⟩ := hg.shapes
  obtain ⟨g1, g2, g3⟩ := hg
  have hb := blendExt_nonneg g.bn
  set S : Box g.shape1.toNat g.shape2.toNat g.shape3.toNat → Matrix (Fin 3) (Fin 3) ℂ :=
    spectrumOf g.kernel.eval (g.rf.L.getD 0 0) (g.rf.L.getD 1 0) (g.rf.L.getD 2 0) with hS
  set nrm := transformNorm (g.rf.L.getD 0 0) (g.rf.L.getD 1 0) (g.rf.L.getD 2 0) with hnrm
  have hx : ∀ x : g.Cell, ∃ c : Box g.shape1.toNat g.shape2.toNat g.shape3.toNat × Fin 3 → ℝ,
      ∀ (γ : ℕ → ℝ) (j : ℕ), g.raw γ j x = ∑ w, c w * γ (g.place j w) := by
    intro x
    obtain ⟨c, hc⟩ := vfSample_coeff S nrm (((g.nb.toNat + x.1 : ℕ) : ZMod _), ((g.my.toNat + x.2.1 : ℕ) : ZMod _),
      ((x.2.2.1 : ℕ) : ZMod _)) x.2.2.2
    refine ⟨fun w => c w * g.rf.noiseStd, fun γ j => ?_⟩
    have h1 := x.1.isLt
    have h2 := x.2.1.isLt
    have h3 := x.2.2.1.isLt
    unfold Gen.raw Gen.block
    rw [ofFn_entry _ (show x.1.val < (g.withStream γ).Nx from h1) (show x.2.1.val < (g.withStream γ).Ny from h2)
      (show x.2.2.1.val < (g.withStream γ).Nz from h3)]
    unfold Gen.sample
    simp only
    rw [dif_pos ⟨p1, p2, p3⟩]
    have a1 : (g.withStream γ).nb.toNat + x.1.val < (g.withStream γ).shape1.toNat := by
      change g.nb.toNat + _ < g.shape1.toNat; omega
    have a2 : (g.withStream γ).my.toNat + x.2.1.val < (g.withStream γ).shape2.toNat := by
      change g.my.toNat + _ < g.shape2.toNat; omega
    have a3 : x.2.2.1.val < (g.withStream γ).shape3.toNat := by
      change _ < g.shape3.toNat; omega
    rw [ofFn_entry _ a1 a2 a3]
    have := hc fun x i => ((g.withStream γ).window j).entry x.1.val x.2.1.val x.2.2.val i
    refine Eq.trans this ?_
    refine Finset.sum_congr rfl fun w _ => ?_
    have hw : ((g.withStream γ).window j).entry w.1.1.val w.1.2.1.val w.1.2.2.val w.2 = γ (g.place j w) * g.rf.noiseStd := by
      have hwin : (g.withStream γ).window j = Arr.ofFn g.shape1.toNat g.shape2.toNat g.shape3.toNat fun a b c i =>
          γ ((((j * g.Nx + a) * g.shape2.toNat + b) * g.shape3.toNat + c) * 3 + i.val) * g.rf.noiseStd := rfl
      rw [hwin, ofFn_entry _ (ZMod.val_lt _) (ZMod.val_lt _) (ZMod.val_lt _)]
      rfl
    rw [hw]
    ring
  choose c hc using hx
  exact ⟨c, fun γ j x => hc x γ j⟩

/-! ### The normalised block as a function of the stream -/

theorem fluct_abs_le (g : Gen) (γ : ℕ → ℝ) (j : ℕ) (x : g.Cell) :
    |g.fluct γ j x| ≤ Real.sqrt (g.Nx * g.Ny * g.Nz * 3 : ℕ) := by
  have hN : 0 < ((g.Nx * g.Ny * g.Nz * 3 : ℕ) : ℝ) := by
    have : 0 < g.Nx * g.Ny * g.Nz * 3 := by unfold Gen.Nx Gen.Ny Gen.Nz; positivity
    exact_mod_cast this
  unfold Gen.fluct
  rw [sd_cells]
  set S := ∑ x : g.Cell, g.raw γ j x ^ 2 with hS
  have hle : g.raw γ j x ^ 2 ≤ S := Finset.single_le_sum (f := fun x => g.raw γ j x ^ 2) (fun x _ => sq_nonneg _) (Finset.mem_univ x)
  have hS0 : 0 ≤ S := (sq_nonneg _).trans hle
  rcases hS0.eq_or_lt with h0 | h0
  · rw [← h0, zero_div, Real.sqrt_zero, div_zero, abs_zero]; exact Real.sqrt_nonneg _
  · rw [abs_div, abs_of_pos (Real.sqrt_pos.2 (div_pos h0 hN)), div_le_iff₀ (Real.sqrt_pos.2 (div_pos h0 hN)),
      ← Real.sqrt_mul hN.le, mul_div_cancel₀ _ hN.ne']
    exact Real.abs_le_sqrt hle

theorem fluct_neg {g : Gen} (hg : g.Good) (γ : ℕ → ℝ) (j : ℕ) (x : g.Cell) :
    g.fluct (fun n => -γ n) j x = -g.fluct γ j x := by
  obtain ⟨-, -, -, p1, p2, p3, -⟩ := hg.shapes
  have : NeZero g.shape1.toNat := ⟨p1.ne'⟩
  have : NeZero g.shape2.toNat := ⟨p2.ne'⟩
  have : NeZero g.shape3.toNat := ⟨p3.ne'⟩
  obtain ⟨c, hc⟩ := raw_linear hg
  have h : ∀ x, g.raw (fun n => -γ n) j x = -g.raw γ j x := by
    intro x
    rw [hc, hc, ← Finset.sum_neg_distrib]
    exact Finset.sum_congr rfl fun w _ => by ring
  unfold Gen.fluct
  rw [sd_cells, sd_cells, h, neg_div]
  simp only [h, neg_sq]

/-- Number of values of the stream in the planes of `m` blocks. -/
def Gen.stride (g : Gen) : ℕ := g.Nx * g.shape2.toNat * g.shape3.toNat * 3

theorem place_shift (g : Gen) (j m : ℕ) (w : Box g.shape1.toNat g.shape2.toNat g.shape3.toNat × Fin 3) :
    g.place (j + m) w = g.place m w + j * g.stride := by
  unfold Gen.place Gen.stride
  ring

theorem place_bounds (g : Gen) [NeZero g.shape1.toNat] [NeZero g.shape2.toNat] [NeZero g.shape3.toNat] (j : ℕ)
    (w : Box g.shape1.toNat g.shape2.toNat g.shape3.toNat × Fin 3) :
    j * g.stride ≤ g.place j w ∧ g.place j w < (j * g.Nx + g.shape1.toNat) * (g.shape2.toNat * g.shape3.toNat * 3) := by
  obtain ⟨⟨a, b, c⟩, i⟩ := w
  constructor
  · unfold Gen.place Gen.stride
    have : (j * g.Nx * g.shape2.toNat) * g.shape3.toNat * 3 ≤
        (((j * g.Nx + a.val) * g.shape2.toNat + b.val) * g.shape3.toNat + c.val) * 3 + i.val := by
      refine le_trans ?_ (Nat.le_add_right _ _)
      refine Nat.mul_le_mul_right _ (le_trans (Nat.mul_le_mul_right _ ?_) (Nat.le_add_right _ _))
      exact le_trans (Nat.mul_le_mul_right _ (Nat.le_add_right _ _)) (Nat.le_add_right _ _)
    calc j * (g.Nx * g.shape2.toNat * g.shape3.toNat * 3) = (j * g.Nx * g.shape2.toNat) * g.shape3.toNat * 3 := by ring
      _ ≤ _ := this
  · unfold Gen.place
    simp only
    have step : ∀ {u v n x : ℕ}, u + 1 ≤ v → x < n → u * n + x + 1 ≤ v * n := by
      intro u v n x h1 h2
      calc u * n + x + 1 ≤ u * n + n := by omega
        _ = (u + 1) * n := by ring
        _ ≤ v * n := Nat.mul_le_mul_right _ h1
    have h1 : j * g.Nx + a.val + 1 ≤ j * g.Nx + g.shape1.toNat := by have := ZMod.val_lt a; omega
    have := step (step (step h1 (ZMod.val_lt b)) (ZMod.val_lt c)) i.isLt
    calc _ < _ := Nat.lt_of_succ_le this
      _ = _ := by ring

theorem fluct_shift {g : Gen} (hg : g.Good) (γ : ℕ → ℝ) (j m : ℕ) (x : g.Cell) :
    g.fluct γ (j + m) x = g.fluct (fun n => γ (n + j * g.stride)) m x := by
  obtain ⟨-, -, -, p1, p2, p3, -⟩ := hg.shapes
  have : NeZero g.shape1.toNat := ⟨p1.ne'⟩
  have : NeZero g.shape2.toNat := ⟨p2.ne'⟩
  have : NeZero g.shape3.toNat := ⟨p3.ne'⟩
  obtain ⟨c, hc⟩ := raw_linear hg
  have h : ∀ x, g.raw γ (j + m) x = g.raw (fun n => γ (n + j * g.stride)) m x := by
    intro x
    rw [hc, hc]
    exact Finset.sum_congr rfl fun w _ => by rw [place_shift]
  unfold Gen.fluct
  rw [sd_cells, sd_cells, h]
  simp only [h]

theorem fluct_measurable {Ω : Type} [MeasurableSpace Ω] {ξ : ℕ → Ω → ℝ} {g : Gen} (hg : g.Good)
    [NeZero g.shape1.toNat] [NeZero g.shape2.toNat] [NeZero g.shape3.toNat] {j : ℕ}
    (hm : ∀ w, Measurable (ξ (g.place j w))) : Measurable fun ω => g.fluct (fun n => ξ n ω) j := by
  obtain ⟨c, hc⟩ := raw_linear hg
  have hr : ∀ x, Measurable fun ω => g.raw (fun n => ξ n ω) j x := by
    intro x
    simp only [hc]
    exact Finset.measurable_sum _ fun w _ => (hm w).const_mul _
  refine measurable_pi_lambda _ fun x => ?_
  unfold Gen.fluct
  simp only [sd_cells]
  exact (hr x).div (((Finset.measurable_sum _ fun x _ => (hr x).pow_const 2).div_const _).sqrt)

/-! ### Laws of the stream -/

section
variable {Ω : Type} [MeasurableSpace Ω] {μ : Measure Ω} [IsProbabilityMeasure μ] {ξ : ℕ → Ω → ℝ} {ν : Measure ℝ}

/-- Independent values with the common law `ν`. -/
def Spec.Stream (μ : Measure Ω) (ξ : ℕ → Ω → ℝ) (ν : Measure ℝ) : Prop :=
  (∀ n, Measurable (ξ n)) ∧ iIndepFun ξ μ ∧ ∀ n, μ.map (ξ n) = ν

theorem Spec.Stream.law (h : Spec.Stream μ ξ ν) : μ.map (fun ω n => ξ n ω) = Measure.infinitePi fun _ => ν := by
  rw [h.2.1.map_fun_eq_infinitePi_map h.1]
  simp only [h.2.2]

theorem Spec.Stream.identDistrib {Ω' : Type} [MeasurableSpace Ω'] {μ' : Measure Ω'} [IsProbabilityMeasure μ'] {ξ' : ℕ → Ω' → ℝ}
    (h : Spec.Stream μ ξ ν) (h' : Spec.Stream μ' ξ' ν) : IdentDistrib (fun ω n => ξ n ω) (fun ω n => ξ' n ω) μ μ' where
  aemeasurable_fst := (measurable_pi_lambda _ h.1).aemeasurable
  aemeasurable_snd := (measurable_pi_lambda _ h'.1).aemeasurable
  map_eq := by rw [h.law, h'.law]

theorem Spec.Stream.shift (h : Spec.Stream μ ξ ν) (k : ℕ) : Spec.Stream μ (fun n => ξ (n + k)) ν :=
  ⟨fun n => h.1 _, h.2.1.precomp (add_left_injective k), fun n => h.2.2 _⟩

theorem Spec.Stream.neg (h : Spec.Stream μ ξ ν) (hs : ν.map (fun x => -x) = ν) : Spec.Stream μ (fun n ω => -ξ n ω) ν := by
  refine ⟨fun n => (h.1 n).neg, h.2.1.comp (fun _ x => -x) fun _ => measurable_neg, fun n => ?_⟩
  rw [← hs, ← h.2.2 n, Measure.map_map measurable_neg (h.1 n)]
  rfl

variable {g : Gen}

theorem fluct_measurable_stream (hg : g.Good) (hm : ∀ n, Measurable (ξ n)) (j : ℕ) :
    Measurable fun ω => g.fluct (fun n => ξ n ω) j := by
  obtain ⟨-, -, -, p1, p2, p3, -⟩ := hg.shapes
  have : NeZero g.shape1.toNat := ⟨p1.ne'⟩
  have : NeZero g.shape2.toNat := ⟨p2.ne'⟩
  have : NeZero g.shape3.toNat := ⟨p3.ne'⟩
  exact fluct_measurable hg fun w => hm _

theorem fluct_seq_measurable (hg : g.Good) : Measurable fun (γ : ℕ → ℝ) (m : ℕ) => g.fluct γ m :=
  measurable_pi_lambda _ fun m => fluct_measurable_stream (ξ := fun n (γ : ℕ → ℝ) => γ n) hg (fun n => measurable_pi_apply n) m

/-- The blocks from the `j`-th on have the same joint law as the blocks from the first on. -/
theorem fluct_stationary (hg : g.Good) (h : Spec.Stream μ ξ ν) (j : ℕ) :
    IdentDistrib (fun ω m => g.fluct (fun n => ξ n ω) (j + m)) (fun ω m => g.fluct (fun n => ξ n ω) m) μ μ := by
  have := ((h.shift (j * g.stride)).identDistrib h).comp (fluct_seq_measurable hg)
  have e : (fun ω m => g.fluct (fun n => ξ n ω) (j + m)) =
      (fun γ m => g.fluct γ m) ∘ fun ω n => ξ (n + j * g.stride) ω := by
    funext ω m x
    exact fluct_shift hg _ j m x
  rw [e]
  exact this

theorem fluct_integrable (hg : g.Good) (hm : ∀ n, Measurable (ξ n)) (j : ℕ) (x : g.Cell) :
    Integrable (fun ω => g.fluct (fun n => ξ n ω) j x) μ := by
  refine Integrable.of_bound (((measurable_pi_apply x).comp (fluct_measurable_stream hg hm j)).aestronglyMeasurable)
    (Real.sqrt (g.Nx * g.Ny * g.Nz * 3 : ℕ)) (Eventually.of_forall fun ω => ?_)
  rw [Real.norm_eq_abs]
  exact fluct_abs_le g _ j x

/-- Mean zero for a symmetric law. -/
theorem fluct_mean (hg : g.Good) (h : Spec.Stream μ ξ ν) (hs : ν.map (fun x => -x) = ν) (j : ℕ) (x : g.Cell) :
    ∫ ω, g.fluct (fun n => ξ n ω) j x ∂μ = 0 := by
  have hF : Measurable fun γ : ℕ → ℝ => g.fluct γ j x :=
    (measurable_pi_apply x).comp ((measurable_pi_apply j).comp (fluct_seq_measurable hg))
  have := (((h.neg hs).identDistrib h).comp hF).integral_eq
  simp only [Function.comp_def, fluct_neg hg] at this
  rw [integral_neg] at this
  linarith

/-- Past and future blocks are independent when the noise windows do not meet. -/
theorem fluct_indep (hg : g.Good) (h : Spec.Stream μ ξ ν) {j j' : ℕ} (hjj : j * g.Nx + g.shape1.toNat ≤ j' * g.Nx) :
    IndepFun (fun ω (m : Fin (j + 1)) => g.fluct (fun n => ξ n ω) m) (fun ω m => g.fluct (fun n => ξ n ω) (j' + m)) μ := by
  obtain ⟨-, -, -, p1, p2, p3, -⟩ := hg.shapes
  have : NeZero g.shape1.toNat := ⟨p1.ne'⟩
  have : NeZero g.shape2.toNat := ⟨p2.ne'⟩
  have : NeZero g.shape3.toNat := ⟨p3.ne'⟩
  set S : Set ℕ := {n | n < j' * g.stride} with hS
  have hdis : Disjoint S Sᶜ := disjoint_compl_right
  have hi := indep_iSup_of_disjoint (m := fun n => MeasurableSpace.comap (ξ n) inferInstance) (μ := μ)
    (fun n => (h.1 n).comap_le) h.2.1 hdis
  have hsub : ∀ (T : Set ℕ) (n : ℕ), n ∈ T → Measurable[⨆ i ∈ T, MeasurableSpace.comap (ξ i) inferInstance] (ξ n) := by
    intro T n hn
    refine Measurable.mono (comap_measurable (ξ n)) ?_ le_rfl
    exact le_iSup₂_of_le (f := fun i (_ : i ∈ T) => MeasurableSpace.comap (ξ i) inferInstance) n hn le_rfl
  rw [IndepFun_iff_Indep]
  refine indep_of_indep_of_le_left (indep_of_indep_of_le_right hi ?_) ?_
  · refine Measurable.comap_le (@measurable_pi_lambda _ _ _ (_) _ _ fun m => ?_)
    refine @fluct_measurable Ω (_) ξ g hg _ _ _ (j' + m) fun w => hsub Sᶜ _ ?_
    have := (place_bounds g (j' + m) w).1
    simp only [hS, Set.mem_compl_iff, Set.mem_setOf_eq, not_lt]
    exact le_trans (Nat.mul_le_mul_right _ (Nat.le_add_right _ _)) this
  · refine Measurable.comap_le (@measurable_pi_lambda _ _ _ (_) _ _ fun m => ?_)
    refine @fluct_measurable Ω (_) ξ g hg _ _ _ m fun w => hsub S _ ?_
    have := (place_bounds g m w).2
    simp only [hS, Set.mem_setOf_eq]
    refine lt_of_lt_of_le this ?_
    have hm : (m : ℕ) * g.Nx ≤ j * g.Nx := Nat.mul_le_mul_right _ (by omega)
    calc _ ≤ (j' * g.Nx) * (g.shape2.toNat * g.shape3.toNat * 3) := Nat.mul_le_mul_right _ (by omega)
      _ = j' * g.stride := by unfold Gen.stride; ring


/-! ### Averages along the wind -/

/-- Averages of a sequence whose subsequences along residue classes have converging averages. -/
theorem average_of_residues {x : ℕ → ℝ} {d : ℕ} (hd : 0 < d) {L : ℝ}
    (h : ∀ r < d, Tendsto (fun m : ℕ => (∑ k ∈ Finset.range m, x (r + k * d)) / m) atTop (𝓝 L)) :
    Tendsto (fun n : ℕ => (∑ j ∈ Finset.range n, x j) / n) atTop (𝓝 L) := by
  set N : ℕ → ℕ → ℕ := fun r n => (n + (d - 1 - r)) / d with hN
  have hsum : ∀ n, ∑ j ∈ Finset.range n, x j = ∑ r ∈ Finset.range d, ∑ k ∈ Finset.range (N r n), x (r + k * d) := by
    intro n
    induction n with
    | zero =>
      rw [Finset.range_zero, Finset.sum_empty]
      refine (Finset.sum_eq_zero fun r hr => ?_).symm
      have : N r 0 = 0 := Nat.div_eq_of_lt (by omega)
      rw [this, Finset.range_zero, Finset.sum_empty]
    | succ n ih =>
      rw [Finset.sum_range_succ, ih]
      have hr0 : n % d ∈ Finset.range d := Finset.mem_range.2 (Nat.mod_lt _ hd)
      rw [← Finset.add_sum_erase _ _ hr0, ← Finset.add_sum_erase _ (fun r => ∑ k ∈ Finset.range (N r (n + 1)), x (r + k * d)) hr0]
      have hdm := Nat.div_add_mod n d
      have hml := Nat.mod_lt n hd
      have e1 : N (n % d) n = n / d := by
        simp only [hN]
        rw [Nat.div_eq_iff hd]
        constructor
        · rw [mul_comm] at hdm; omega
        · have : n / d * d + n % d = n := by rw [mul_comm]; exact hdm
          omega
      have e2 : N (n % d) (n + 1) = n / d + 1 := by
        simp only [hN]
        rw [Nat.div_eq_iff hd]
        have : n / d * d + n % d = n := by rw [mul_comm]; exact hdm
        have h2 : (n / d + 1) * d = n / d * d + d := by ring
        omega
      have e3 : ∀ r ∈ (Finset.range d).erase (n % d), N r (n + 1) = N r n := by
        intro r hr
        rw [Finset.mem_erase, Finset.mem_range] at hr
        simp only [hN]
        have hne : (n + 1 + (d - 1 - r)) % d ≠ 0 := by
          intro h0
          obtain ⟨q, hq⟩ := Nat.dvd_of_mod_eq_zero h0
          have h1 : n + d = r + d * q := by omega
          have hq1 : 1 ≤ q := by
            rcases Nat.eq_zero_or_pos q with h | h
            · subst h; omega
            · exact h
          obtain ⟨q', rfl⟩ := Nat.exists_eq_add_of_le hq1
          have h3 : n = r + d * q' := by rw [mul_add, mul_one] at h1; omega
          have : n % d = r := by rw [h3, Nat.add_mul_mod_self_left, Nat.mod_eq_of_lt hr.2]
          exact hr.1 this.symm
        rw [show n + 1 + (d - 1 - r) = n + (d - 1 - r) + 1 by ring] at hne ⊢
        rw [Nat.succ_div, if_neg (fun hdv => hne (Nat.mod_eq_zero_of_dvd hdv)), add_zero]
      have e4 : ∑ r ∈ (Finset.range d).erase (n % d), ∑ k ∈ Finset.range (N r (n + 1)), x (r + k * d) =
          ∑ r ∈ (Finset.range d).erase (n % d), ∑ k ∈ Finset.range (N r n), x (r + k * d) :=
        Finset.sum_congr rfl fun r hr => by rw [e3 r hr]
      have : n % d + n / d * d = n := by rw [mul_comm, add_comm]; exact hdm
      rw [e1, e2, Finset.sum_range_succ, e4, this]
      ring
  have hNtop : ∀ r, Tendsto (N r) atTop atTop := by
    intro r
    refine tendsto_atTop.2 fun b => ?_
    filter_upwards [eventually_ge_atTop (b * d)] with n hn
    exact (Nat.le_div_iff_mul_le hd).2 (hn.trans (Nat.le_add_right _ _))
  have hdr : (0 : ℝ) < d := by exact_mod_cast hd
  have hratio : ∀ r < d, Tendsto (fun n => (N r n : ℝ) / n) atTop (𝓝 (1 / d)) := by
    intro r hr
    have h1 : Tendsto (fun n : ℕ => (1 / d : ℝ) - (1 / (n : ℝ))) atTop (𝓝 (1 / d)) := by
      have := tendsto_one_div_atTop_nhds_zero_nat (𝕜 := ℝ)
      simpa using this.const_sub (1 / d : ℝ)
    have h2 : Tendsto (fun n : ℕ => (1 / d : ℝ) + (1 / (n : ℝ))) atTop (𝓝 (1 / d)) := by
      have := tendsto_one_div_atTop_nhds_zero_nat (𝕜 := ℝ)
      simpa using this.const_add (1 / d : ℝ)
    refine tendsto_of_tendsto_of_tendsto_of_le_of_le' h1 h2 ?_ ?_
    · filter_upwards [eventually_gt_atTop 0] with n hn
      have hnr : (0 : ℝ) < n := by exact_mod_cast hn
      have : n ≤ N r n * d + d := by
        have := Nat.div_add_mod (n + (d - 1 - r)) d
        have := Nat.mod_lt (n + (d - 1 - r)) hd
        have : N r n * d = d * ((n + (d - 1 - r)) / d) := by simp only [hN]; ring
        omega
      have hr' : (n : ℝ) ≤ N r n * d + d := by exact_mod_cast this
      rw [sub_le_iff_le_add, ← add_div, div_le_div_iff₀ hdr hnr]
      linarith
    · filter_upwards [eventually_gt_atTop 0] with n hn
      have hnr : (0 : ℝ) < n := by exact_mod_cast hn
      have : N r n * d ≤ n + d := by
        have := Nat.div_mul_le_self (n + (d - 1 - r)) d
        simp only [hN]
        omega
      have hr' : (N r n : ℝ) * d ≤ n + d := by exact_mod_cast this
      rw [div_add_div _ _ hdr.ne' hnr.ne', div_le_div_iff₀ hnr (by positivity)]
      nlinarith
  have hmain : Tendsto (fun n : ℕ => ∑ r ∈ Finset.range d,
      (N r n : ℝ) / n * ((∑ k ∈ Finset.range (N r n), x (r + k * d)) / N r n)) atTop (𝓝 (∑ _r ∈ Finset.range d, 1 / (d : ℝ) * L)) := by
    refine tendsto_finsetSum _ fun r hr => ?_
    rw [Finset.mem_range] at hr
    exact (hratio r hr).mul ((h r hr).comp (hNtop r))
  have hlim : ∑ _r ∈ Finset.range d, 1 / (d : ℝ) * L = L := by
    rw [Finset.sum_const, Finset.card_range, nsmul_eq_mul]
    field_simp
  rw [hlim] at hmain
  refine hmain.congr fun n => ?_
  rw [hsum n, Finset.sum_div]
  refine Finset.sum_congr rfl fun r _ => ?_
  rcases Nat.eq_zero_or_pos (N r n) with h0 | h0
  · rw [h0]; simp
  · have : (N r n : ℝ) ≠ 0 := by exact_mod_cast h0.ne'
    field_simp

/-- Averages over the blocks of a function of one block. -/
theorem fluct_average (hg : g.Good) (h : Spec.Stream μ ξ ν) {F : (g.Cell → ℝ) → ℝ} (hF : Measurable F)
    (hint : Integrable (fun ω => F (g.fluct (fun n => ξ n ω) 0)) μ) :
    ∀ᵐ ω ∂μ, Tendsto (fun n : ℕ => (∑ j ∈ Finset.range n, F (g.fluct (fun n => ξ n ω) j)) / n) atTop
      (𝓝 (∫ ω, F (g.fluct (fun n => ξ n ω) 0) ∂μ)) := by
  obtain ⟨-, -, -, p1, -, -, q1, -, -⟩ := hg.shapes
  set d := g.shape1.toNat with hd
  have hident : ∀ j, IdentDistrib (fun ω => F (g.fluct (fun n => ξ n ω) j)) (fun ω => F (g.fluct (fun n => ξ n ω) 0)) μ μ := by
    intro j
    exact (fluct_stationary hg h j).comp (hF.comp (measurable_pi_apply 0))
  have hlaw : ∀ r, ∀ᵐ ω ∂μ, Tendsto (fun m : ℕ => (∑ k ∈ Finset.range m, F (g.fluct (fun n => ξ n ω) (r + k * d))) / m) atTop
      (𝓝 (∫ ω, F (g.fluct (fun n => ξ n ω) 0) ∂μ)) := by
    intro r
    have hind : ∀ {k k' : ℕ}, k < k' → IndepFun (fun ω => F (g.fluct (fun n => ξ n ω) (r + k * d)))
        (fun ω => F (g.fluct (fun n => ξ n ω) (r + k' * d))) μ := by
      intro k k' hk
      have hw : (r + k * d) * g.Nx + d ≤ (r + k' * d) * g.Nx := by
        have h1 : (k + 1) * d ≤ k' * d := Nat.mul_le_mul_right _ hk
        have h2 : r + k * d + d ≤ r + k' * d := by rw [add_mul, one_mul] at h1; omega
        have h3 : (r + k * d + d) * g.Nx ≤ (r + k' * d) * g.Nx := Nat.mul_le_mul_right _ h2
        have h4 : d ≤ d * g.Nx := Nat.le_mul_of_pos_right _ q1
        rw [add_mul] at h3
        omega
      have := (fluct_indep hg h hw).comp
        (φ := fun v : Fin (r + k * d + 1) → g.Cell → ℝ => F (v (Fin.last _))) (ψ := fun v : ℕ → g.Cell → ℝ => F (v 0))
        (hF.comp (measurable_pi_apply _)) (hF.comp (measurable_pi_apply 0))
      exact this
    have hs := strong_law_ae_real (fun k ω => F (g.fluct (fun n => ξ n ω) (r + k * d)))
      ((hident _).integrable_iff.2 hint) (fun k k' hne => by
        rcases lt_or_gt_of_ne hne with hk | hk
        · exact hind hk
        · exact (hind hk).symm) (fun k => (hident _).trans (hident _).symm)
    filter_upwards [hs] with ω hω
    rw [← (hident (r + 0 * d)).integral_eq]
    exact hω
  filter_upwards [ae_all_iff.2 hlaw] with ω hω
  exact average_of_residues p1 fun r _ => hω r

/-! ### C97 -/

/-- Mean wind at height `z`. -/
def Spec.meanWind (p : ProfileArgs) (z : ℝ) : Fl :=
  if p.ptype = "LOG" then logLaw z p.z0 p.zref p.uref else powerLaw z p.zref p.uref (p.plexp.getD 0)

/-- The blocks of a returned field are the normalised blocks of the stream plus the mean wind. -/
theorem fluct_returned (h : Spec.Stream μ ξ ν) (hat : ∀ x, ν {x} = 0) {env : GenEnv} {a : GenArgs} (hp : a.PosScales)
    (he : a.PosEnergy) (hlow : a.low = none) {q : ℕ} (hinit : genInit env a = (.ok g, q)) (hK : g.kernel.Valid) :
    ∀ᵐ ω ∂μ, ∃ g', genInit (env.withStream fun n => ξ n ω) a = (.ok g', q) ∧
      ∀ cs : List (ℕ × ProfileArgs), (∀ c ∈ cs, c.2.Valid) → ∀ (p : ProfileArgs) (n : ℕ), p.Valid →
        ∃ f, ((g'.run cs).2.generate p n).1 = .ok f ∧ f.planes.length = ((cs.map Prod.fst).sum + n) * g.Nx ∧
          ∀ i < n, ∀ (r : Fin g.Nx) (b : Fin g.Ny) (c : Fin g.Nz), ∃ w,
            f.val? (((cs.map Prod.fst).sum + i) * g.Nx + r) b c = some w ∧
            w 0 = fin (g.fluct (fun n => ξ n ω) ((cs.map Prod.fst).sum + i) (r, b, c, 0)) +
              Spec.meanWind p (c * (a.d3 / 2 ^ a.l3)) ∧
            w 1 = fin (g.fluct (fun n => ξ n ω) ((cs.map Prod.fst).sum + i) (r, b, c, 1)) ∧
            w 2 = fin (g.fluct (fun n => ξ n ω) ((cs.map Prod.fst).sum + i) (r, b, c, 2)) := by
  have hg := genInit_good hp hinit
  obtain ⟨K, L, T, hs, hf, hl, ⟨-, -, d3⟩, ⟨-, -, l3⟩, -, -, hk, -, -, -, hnone, -⟩ := genInit_ok hinit
  have hE : g.kernel.Energetic := by rw [hk]; exact genScales_energetic he hs
  have hatom : ∀ n x, μ {ω | ξ n ω = x} = 0 := by
    intro n x
    have := hat x
    rw [← h.2.2 n, Measure.map_apply (h.1 n) (measurableSet_singleton x)] at this
    exact this
  filter_upwards [blocks_any h.1 h.2.1 hatom hg (genInit_regular hp.1 hinit) hK hE] with ω hω
  refine ⟨_, genInit_stream hinit _, fun cs hv p n hpv => ?_⟩
  set g' := g.withStream fun n => ξ n ω with hg'
  have hgood : g'.Good := hg
  have hready : g'.LowReady := hl
  have hfresh : g'.Fresh := hf
  have hl0 : g'.low = none := hnone hlow
  have hok := run_ok (g := g') hgood hready hω cs hv 0 ⟨g.Ny, g.Nz, []⟩ ⟨rfl, rfl⟩
  obtain ⟨j, k, tot, e, sh, -, -, -, hall⟩ := run_st hgood hready cs 0 0 ⟨g.Ny, g.Nz, []⟩
    ⟨rfl, rfl, by simp, fun p hp => by cases hp⟩
  obtain ⟨hk', hj'⟩ := hall hok
  rw [zero_add] at hk' hj'
  rw [show g'.st 0 ⟨g.Ny, g.Nz, []⟩ = g' from hfresh.st] at e
  rw [e]
  rcases generate_st hgood hready p n j ⟨sh.1, sh.2.1⟩ with ⟨-, h2⟩ | ⟨m, -, -, h3, -⟩
  swap
  · exact absurd ⟨hω _, hpv⟩ h3
  rw [h2]
  refine ⟨_, rfl, ?_, ?_⟩
  · have := (outs_shape g' p 0 j n).1
    simp only [Gen.ext, List.length_append, this, sh.2.2.1, hk']
    change _ * g.Nx + n * g.Nx = _
    ring
  · intro i hi r b c
    refine ⟨g'.outAt p (0 + i) (j + i) r b c, ?_, ?_⟩
    · have := ext_val? g' tot p 0 j n i r b c hi r.isLt b.isLt c.isLt
      rw [sh.2.2.1, hk'] at this
      rw [← this]
      congr 1
      change _ = _ * g.Nx + (i * g.Nx + r)
      ring
    · have hz : ((g.Nz - 1 : ℕ) : ℝ) = 2 ^ g.l3 := by unfold Gen.Nz; simp
      rw [← hj']
      unfold Gen.outAt
      rw [hl0]
      simp only [if_true, add_fin_zero]
      refine ⟨?_, rfl, rfl⟩
      unfold Gen.profileAt Spec.meanWind
      change fin _ + (if p.ptype = "LOG" then logLaw ((c : ℝ) * (g.d3 / (g.Nz - 1 : ℕ))) p.z0 p.zref p.uref
        else powerLaw ((c : ℝ) * (g.d3 / (g.Nz - 1 : ℕ))) p.zref p.uref (p.plexp.getD 0)) = _
      rw [hz, d3, l3]
      rfl

/-- **C97.**  A generator without low-frequency part, physical arguments, and a random stream of independent values with a
common law without atoms.  There are random arrays `V 0, V 1, …`, one for each block, such that with probability one every
sequence of valid `generate` calls succeeds and the `j`-th block of the returned field is `V j` plus the mean wind at its
height in the first component.  These arrays are bounded by `√(3 Nx Ny Nz)`; they have mean zero if the law of the stream is
symmetric; they are stationary: the blocks from the `j`-th on have the same joint law as the blocks from the first on; the
blocks up to the `j`-th are independent of the blocks from the `j'`-th on when the noise windows of the two do not meet; and
for every integrable quantity computed from one block, its average over the blocks converges to its expected value. -/
theorem C97_blocks (h : Spec.Stream μ ξ ν) (hat : ∀ x, ν {x} = 0) {env : GenEnv} {a : GenArgs} (hp : a.PosScales)
    (he : a.PosEnergy) (hlow : a.low = none) {q : ℕ} (hinit : genInit env a = (.ok g, q)) (hK : g.kernel.Valid) :
    ∃ V : ℕ → Ω → g.Cell → ℝ, (∀ j, Measurable (V j)) ∧
      (∀ᵐ ω ∂μ, ∃ g', genInit (env.withStream fun n => ξ n ω) a = (.ok g', q) ∧
        ∀ cs : List (ℕ × ProfileArgs), (∀ c ∈ cs, c.2.Valid) → ∀ (p : ProfileArgs) (n : ℕ), p.Valid →
          ∃ f, ((g'.run cs).2.generate p n).1 = .ok f ∧ f.planes.length = ((cs.map Prod.fst).sum + n) * g.Nx ∧
            ∀ i < n, ∀ (r : Fin g.Nx) (b : Fin g.Ny) (c : Fin g.Nz), ∃ w,
              f.val? (((cs.map Prod.fst).sum + i) * g.Nx + r) b c = some w ∧
              w 0 = fin (V ((cs.map Prod.fst).sum + i) ω (r, b, c, 0)) + Spec.meanWind p (c * (a.d3 / 2 ^ a.l3)) ∧
              w 1 = fin (V ((cs.map Prod.fst).sum + i) ω (r, b, c, 1)) ∧
              w 2 = fin (V ((cs.map Prod.fst).sum + i) ω (r, b, c, 2))) ∧
      (∀ j ω x, |V j ω x| ≤ Real.sqrt (g.Nx * g.Ny * g.Nz * 3 : ℕ)) ∧
      (ν.map (fun x => -x) = ν → ∀ j x, ∫ ω, V j ω x ∂μ = 0) ∧
      (∀ j, IdentDistrib (fun ω m => V (j + m) ω) (fun ω m => V m ω) μ μ) ∧
      (∀ j j', j * g.Nx + g.shape1.toNat ≤ j' * g.Nx →
        IndepFun (fun ω (m : Fin (j + 1)) => V m ω) (fun ω m => V (j' + m) ω) μ) ∧
      ∀ F : (g.Cell → ℝ) → ℝ, Measurable F → Integrable (fun ω => F (V 0 ω)) μ →
        ∀ᵐ ω ∂μ, Tendsto (fun n : ℕ => (∑ j ∈ Finset.range n, F (V j ω)) / n) atTop (𝓝 (∫ ω, F (V 0 ω) ∂μ)) := by
  have hg := genInit_good hp hinit
  refine ⟨fun j ω => g.fluct (fun n => ξ n ω) j, fluct_measurable_stream hg h.1,
    fluct_returned h hat hp he hlow hinit hK, fun j ω x => fluct_abs_le g _ j x,
    fun hsym j x => fluct_mean hg h hsym j x, fluct_stationary hg h, fun j j' hjj => fluct_indep hg h hjj,
    fun F hF hint => fluct_average hg h hF hint⟩

/-- Component `k` at a point of the outcome of a call (0 if there is none). -/
def Spec.readOut (r : Except PyErr (Arr Fl)) (x y z : ℕ) (k : Fin 3) : ℝ :=
  match r with
  | .ok f => ((f.val? x y z).map fun w => (w k).toReal).getD 0
  | .error _ => 0

/-- **C97.**  The wind in a generated field averages to the mean profile: for a symmetric law of the stream, with probability
one, the average over the blocks of one call of the wind at any given point of the block tends, as the number of blocks grows,
to the mean wind at its height in the first component and to zero in the others. -/
theorem C97_mean_wind (h : Spec.Stream μ ξ ν) (hat : ∀ x, ν {x} = 0) (hsym : ν.map (fun x => -x) = ν) {env : GenEnv}
    {a : GenArgs} (hp : a.PosScales) (he : a.PosEnergy) (hlow : a.low = none) {q : ℕ} (hinit : genInit env a = (.ok g, q))
    (hK : g.kernel.Valid) {p : ProfileArgs} (hv : p.Valid) (hlog : p.ptype = "LOG" → p.z0 ≠ p.zref)
    (hpl : ∀ e, p.plexp = some e → 0 ≤ e) :
    ∀ᵐ ω ∂μ, ∃ g', genInit (env.withStream fun n => ξ n ω) a = (.ok g', q) ∧
      ∀ r < g.Nx, ∀ b < g.Ny, ∀ c < g.Nz, ∀ k,
        Tendsto (fun n : ℕ => (∑ i ∈ Finset.range n, Spec.readOut (g'.generate p n).1 (i * g.Nx + r) b c k) / n) atTop
          (𝓝 (if k = 0 then (Spec.meanWind p (c * (a.d3 / 2 ^ a.l3))).toReal else 0)) := by
  obtain ⟨V, hVm, hV, hVb, hmean, -, -, hav⟩ := C97_blocks h hat hp he hlow hinit hK
  have hz : ∀ c : ℕ, (0 : ℝ) ≤ c * (a.d3 / 2 ^ a.l3) := fun c => by
    have := hp.1.2.2
    positivity
  have hfin : ∀ c : ℕ, ∃ v, Spec.meanWind p (c * (a.d3 / 2 ^ a.l3)) = fin v := by
    intro c
    obtain ⟨hty, z1, -, z2⟩ := hv
    unfold Spec.meanWind
    by_cases ht : p.ptype = "LOG"
    · rw [if_pos ht]
      exact ⟨_, logLaw_fin (hz c) z2 z1 (hlog ht).symm⟩
    · rw [if_neg ht]
      obtain ⟨-, e, hpe⟩ := hty.resolve_left ht
      rw [hpe]
      exact ⟨_, powerLaw_fin (hz c) z1 (hpl e hpe)⟩
  have hall : ∀ᵐ ω ∂μ, ∀ x : g.Cell, Tendsto (fun n : ℕ => (∑ j ∈ Finset.range n, V j ω x) / n) atTop (𝓝 0) := by
    refine ae_all_iff.2 fun x => ?_
    have hint : Integrable (fun ω => V 0 ω x) μ :=
      Integrable.of_bound ((measurable_pi_apply x).comp (hVm 0)).aestronglyMeasurable _
        (Eventually.of_forall fun ω => by rw [Real.norm_eq_abs]; exact hVb 0 ω x)
    have := hav (fun v => v x) (measurable_pi_apply x) hint
    rwa [hmean hsym 0 x] at this
  filter_upwards [hV, hall] with ω hω1 hω2
  obtain ⟨g', hg', hcalls⟩ := hω1
  refine ⟨g', hg', fun r hr b hb c hc k => ?_⟩
  obtain ⟨v, hvv⟩ := hfin c
  have hread : ∀ n : ℕ, ∀ i ∈ Finset.range n, Spec.readOut (g'.generate p n).1 (i * g.Nx + r) b c k =
      V i ω (⟨r, hr⟩, ⟨b, hb⟩, ⟨c, hc⟩, k) + (if k = 0 then v else 0) := by
    intro n i hi
    obtain ⟨f, hf, -, hval⟩ := hcalls [] (fun c hc => by cases hc) p n hv
    obtain ⟨w, hw, w0, w1, w2⟩ := hval i (Finset.mem_range.1 hi) ⟨r, hr⟩ ⟨b, hb⟩ ⟨c, hc⟩
    simp only [List.map_nil, List.sum_nil, zero_add] at hw w0 w1 w2
    have hf' : (g'.generate p n).1 = .ok f := hf
    unfold Spec.readOut
    rw [hf']
    simp only
    rw [hw]
    rw [hvv] at w0
    fin_cases k
    · simp only [Option.map_some, Option.getD_some]
      change (w 0).toReal = _
      rw [w0]; simp
    · simp only [Option.map_some, Option.getD_some]
      change (w 1).toReal = _
      rw [w1]; simp
    · simp only [Option.map_some, Option.getD_some]
      change (w 2).toReal = _
      rw [w2]; simp
  have hlim := (hω2 (⟨r, hr⟩, ⟨b, hb⟩, ⟨c, hc⟩, k)).add_const (if k = 0 then v else 0)
  rw [zero_add] at hlim
  rw [hvv, toReal_fin]
  refine hlim.congr' ?_
  filter_upwards [eventually_gt_atTop 0] with n hn
  have hnr : (n : ℝ) ≠ 0 := by exact_mod_cast hn.ne'
  rw [Finset.sum_congr rfl (hread n), Finset.sum_add_distrib, Finset.sum_const, Finset.card_range, nsmul_eq_mul, add_div,
    mul_div_cancel_left₀ _ hnr]

end

/-- A stream, a law and arguments meeting the hypotheses of `C97_blocks` and `C97_mean_wind`: independent normal values, whose
law is symmetric and without atoms. -/
example (env : GenEnv) :
    Spec.Stream (Measure.infinitePi fun _ : ℕ => gaussianReal 0 1) (fun n (ω : ℕ → ℝ) => ω n) (gaussianReal 0 1) ∧
    (∀ x, gaussianReal 0 1 {x} = 0) ∧ (gaussianReal 0 1).map (fun x => -x) = gaussianReal 0 1 ∧
    exampleArgs.PosScales ∧ exampleArgs.PosEnergy ∧ exampleArgs.low = none ∧
    (∃ g, genInit env exampleArgs = (.ok g, env.globPos) ∧ g.kernel.Valid) ∧
    (⟨90, 10, 0.1, "LOG", none⟩ : ProfileArgs).Valid := by
  refine ⟨⟨fun n => measurable_pi_apply n, ?_, fun n => ?_⟩, fun x => ?_, ?_, ?_⟩
  · exact iIndepFun_infinitePi (P := fun _ => gaussianReal 0 1) (X := fun _ x => x) fun _ => measurable_id
  · exact Measure.infinitePi_map_eval (fun _ => gaussianReal 0 1) n
  · have : NullSingletonClass (gaussianReal 0 1) := nullSingletonClass_gaussianReal one_ne_zero
    exact measure_singleton x
  · have := gaussianReal_map_neg (μ := 0) (v := 1)
    simpa using this
  · obtain ⟨h1, h2, h3, -⟩ := exampleArgs_physical env
    exact ⟨h1, h2, rfl, h3, Or.inl rfl, by norm_num, by norm_num, by norm_num⟩

end
end Verif
