import Verif.Props.GeneratorUnits

/-!
# Continuity of the generated field in the time scale, and the limit of vanishing time scale: C122
-/

namespace Verif
open Fl Filter Topology

noncomputable section
open Classical

/-! ### The kernels -/

theorem k30R_cont (k : K3) : Continuous fun b => k30R k b := by unfold k30R; fun_prop
theorem kk0R_cont (k : K3) : Continuous fun b => kk0R k b := by
  unfold kk0R
  have := k30R_cont k
  fun_prop

theorem atR_cont {k : K3} (h : k.k1 ≠ 0) : Continuous fun b => atR k b := by
  refine continuous_iff_continuousAt.2 fun b => ?_
  unfold atR
  have hc : Continuous fun b => (⟨kk0R k b - k30R k b * k.k1 * b, b * k.k1 * Real.sqrt (sR k)⟩ : ℂ) := by
    have h1 := kk0R_cont k
    have h2 := k30R_cont k
    have e : (fun b => (⟨kk0R k b - k30R k b * k.k1 * b, b * k.k1 * Real.sqrt (sR k)⟩ : ℂ)) =
        fun b => ((kk0R k b - k30R k b * k.k1 * b : ℝ) : ℂ) + ((b * k.k1 * Real.sqrt (sR k) : ℝ) : ℂ) * Complex.I := by
      funext b
      apply Complex.ext <;> simp
    rw [e]
    fun_prop
  refine ContinuousAt.comp (g := Complex.arg) (Complex.continuousAt_arg ?_) hc.continuousAt
  rw [Complex.mem_slitPlane_iff]
  by_cases hb : b = 0
  · left
    subst hb
    have := kkR_pos h
    simp only [kk0R, k30R]
    unfold kkR at this
    linarith
  · right
    exact mul_ne_zero (mul_ne_zero hb h) (Real.sqrt_pos.2 (sR_pos h)).ne'

theorem zc_cont (k : K3) : Continuous fun b => zc k b := by
  by_cases h1 : k.k1 = 0
  · by_cases hk : kkR k = 0
    · simp only [zc_zero hk]; exact continuous_const
    · simp only [zc_k1_zero h1 hk]; exact continuous_const
  · simp only [zc_generic h1]
    have a := atR_cont h1
    have c := kk0R_cont k
    have d := k30R_cont k
    unfold z1R z2R z3R c1R c2R
    fun_prop

theorem kerR_cont (k : K3) (i j : Fin 3) : Continuous fun b => kerR k b i j := by
  have h1 := zc_cont k
  have h2 := k30R_cont k
  have z1 : Continuous fun b => (zc k b).1 := continuous_fst.comp h1
  have z2 : Continuous fun b => (zc k b).2.1 := (continuous_fst.comp continuous_snd).comp h1
  have z3 : Continuous fun b => (zc k b).2.2 := (continuous_snd.comp continuous_snd).comp h1
  unfold kerR
  fin_cases i <;> fin_cases j <;> simp <;> fun_prop

theorem constR_cont {L E0 : ℝ} (k : K3) : Continuous fun b => constR L E0 (kk0R k b) := by
  have h := kk0R_cont k
  unfold constR
  refine Real.continuous_sqrt.comp (Continuous.div continuous_const ?_ fun b => ?_)
  · refine Continuous.rpow_const (by fun_prop) fun b => Or.inl ?_
    have := kk0R_nonneg k b
    positivity
  · have := kk0R_nonneg k b
    have : 0 < (1 + L ^ 2 * kk0R k b) ^ (17 / 6 : ℝ) := Real.rpow_pos_of_pos (by positivity) _
    exact this.ne'

/-- Without distortion the sheared kernel is the isotropic one. -/
theorem kerR_unsheared (k : K3) (i j : Fin 3) :
    kerR k 0 i j = (![![0, -k.k3, k.k2], ![k.k3, 0, -k.k1], ![-k.k2, k.k1, 0]] : Fin 3 → Fin 3 → ℝ) i j := by
  have ht : k30R k 0 = k.k3 := by simp [k30R]
  unfold kerR
  rw [ht]
  by_cases h1 : k.k1 = 0
  · by_cases hk : kkR k = 0
    · obtain ⟨h1, h2, h3⟩ := kkR_eq_zero hk
      rw [zc_zero hk]
      fin_cases i <;> fin_cases j <;> simp [h1, h2, h3]
    · rw [zc_k1_zero h1 hk]
      fin_cases i <;> fin_cases j <;> simp [h1]
  · have hk := (kkR_pos h1).ne'
    have e : kk0R k 0 = kkR k := by unfold kk0R kkR; rw [ht]
    have ea : atR k 0 = 0 := by
      unfold atR
      rw [e]
      have : (⟨kkR k - k30R k 0 * k.k1 * 0, 0 * k.k1 * Real.sqrt (sR k)⟩ : ℂ) = ((kkR k : ℝ) : ℂ) := by
        apply Complex.ext <;> simp
      rw [this]
      exact Complex.arg_ofReal_of_nonneg (kkR_nonneg k)
    have e1 : z1R k 0 = 0 := by unfold z1R c1R c2R; rw [ea]; ring
    have e2 : z2R k 0 = 0 := by unfold z2R c1R c2R; rw [ea]; ring
    have e3 : z3R k 0 = 1 := by unfold z3R; rw [e]; exact div_self hk
    rw [zc_generic h1, e1, e2, e3]
    fin_cases i <;> fin_cases j <;> simp

/-- The kernel of the Mann model depends continuously on the time scale. -/
theorem mann_cont {hyp : ℝ → ℝ} {L E0 : ℝ} (hL : 0 < L) (hE : 0 ≤ E0) (hh : ∀ x < 0, 0 < hyp x) (k : K3) (i j : Fin 3) :
    Continuous fun G => times1j (mannKernel hyp L E0 G k) i j := by
  have e : ∀ G, mannBeta hyp L G k = fin (G * (if kkR k = 0 then 0 else
      (kkR k * L ^ 2) ^ (-1 / 3 : ℝ) / Real.sqrt (hyp (-1 / (kkR k * L ^ 2))))) := by
    intro G
    rw [mannBeta_eq G hL hh]
    split_ifs
    · simp
    · rw [mul_div_assoc]
  obtain ⟨c, hc⟩ : ∃ c : ℝ, c = (if kkR k = 0 then 0 else
      (kkR k * L ^ 2) ^ (-1 / 3 : ℝ) / Real.sqrt (hyp (-1 / (kkR k * L ^ 2)))) := ⟨_, rfl⟩
  simp only [← hc] at e
  unfold mannKernel times1j
  simp only [e, shearKernel_fin hL hE, toReal_fin]
  have h1 : Continuous fun G : ℝ => constR L E0 (kk0R k (G * c)) := (constR_cont k).comp (by fun_prop : Continuous fun G : ℝ => G * c)
  have h2 : Continuous fun G : ℝ => kerR k (G * c) i j := (kerR_cont k i j).comp (by fun_prop : Continuous fun G : ℝ => G * c)
  fun_prop

theorem mann_unsheared {hyp : ℝ → ℝ} {L E0 : ℝ} (hL : 0 < L) (hE : 0 ≤ E0) (hh : ∀ x < 0, 0 < hyp x) (k : K3) (i j : Fin 3) :
    times1j (mannKernel hyp L E0 0 k) i j = times1j (vkKernel L E0 k) i j := by
  have e : mannBeta hyp L 0 k = fin 0 := by
    rw [mannBeta_eq 0 hL hh]
    simp
  have e0 : kk0R k 0 = kkR k := by unfold kk0R kkR k30R; ring
  rw [vk_entry hL hE]
  unfold mannKernel times1j
  rw [e, shearKernel_fin hL hE, toReal_fin, kerR_unsheared, e0]

/-! ### Blocks -/

/-- The same object with another kernel. -/
def Gen.withKernel (g : Gen) (K : GenKernel) : Gen := { g with kernel := K }

theorem vfSample_tendsto {n1 n2 n3 : ℕ} [NeZero n1] [NeZero n2] [NeZero n3] {ι : Type} {F : Filter ι}
    {S : ι → Box n1 n2 n3 → Matrix (Fin 3) (Fin 3) ℂ} {S0 : Box n1 n2 n3 → Matrix (Fin 3) (Fin 3) ℂ}
    (h : ∀ k i l, Tendsto (fun t => S t k i l) F (𝓝 (S0 k i l))) (norm : ℝ) (noise : Box n1 n2 n3 → Fin 3 → ℝ) (x : Box n1 n2 n3)
    (i : Fin 3) : Tendsto (fun t => vfSample (S t) norm noise x i) F (𝓝 (vfSample S0 norm noise x i)) := by
  simp only [vfSample_eq]
  unfold irfftn vfY spectrumHalf
  refine (Tendsto.const_mul _ (tendsto_finset_sum _ fun k _ => ?_)).div_const _
  by_cases hk : k.2.2.val ≤ n3 / 2
  · simp only [if_pos hk]
    refine Tendsto.const_mul _ ?_
    refine (Complex.continuous_re.tendsto _).comp (Tendsto.mul_const _ (tendsto_finset_sum _ fun l _ => ?_))
    exact ((h k i l).mul_const _).mul_const _
  · simp only [if_neg hk]
    exact tendsto_const_nhds

theorem block_tendsto {g : Gen} (hg : g.Good) {ι : Type} {F : Filter ι} {K : ι → GenKernel}
    (hK : ∀ k i l, Tendsto (fun t => times1j ((K t).eval k) i l) F (𝓝 (times1j (g.kernel.eval k) i l))) (j a b c : ℕ)
    (i : Fin 3) (ha : a < g.Nx) (hb : b < g.Ny) (hc : c < g.Nz) :
    Tendsto (fun t => ((g.withKernel (K t)).block j).entry a b c i) F (𝓝 ((g.block j).entry a b c i)) := by
  obtain ⟨e1, e2, e3, p1, p2, p3, -⟩ := hg.shapes
  have hx := blendExt_nonneg g.bn
  obtain ⟨q1, q2, q3⟩ := hg
  have hn : 0 < g.shape1.toNat ∧ 0 < g.shape2.toNat ∧ 0 < g.shape3.toNat := ⟨p1, p2, p3⟩
  have : NeZero g.shape1.toNat := ⟨p1.ne'⟩
  have : NeZero g.shape2.toNat := ⟨p2.ne'⟩
  have : NeZero g.shape3.toNat := ⟨p3.ne'⟩
  have l1 : g.nb.toNat + a < g.shape1.toNat := by omega
  have l2 : g.my.toNat + b < g.shape2.toNat := by omega
  have l3 : c < g.shape3.toNat := by omega
  have key : ∀ G : GenKernel, ((g.withKernel G).block j).entry a b c i =
      vfSample (n1 := g.shape1.toNat) (n2 := g.shape2.toNat) (n3 := g.shape3.toNat)
        (spectrumOf G.eval (g.rf.L.getD 0 0) (g.rf.L.getD 1 0) (g.rf.L.getD 2 0))
        (transformNorm (g.rf.L.getD 0 0) (g.rf.L.getD 1 0) (g.rf.L.getD 2 0))
        (fun (x : Box g.shape1.toNat g.shape2.toNat g.shape3.toNat) l => (g.window j).entry x.1.val x.2.1.val x.2.2.val l)
        (((g.nb.toNat + a : ℕ) : ZMod g.shape1.toNat), ((g.my.toNat + b : ℕ) : ZMod g.shape2.toNat), (c : ZMod g.shape3.toNat)) i := by
    intro G
    change (Arr.ofFn g.Nx g.Ny g.Nz fun a b c i => ((g.withKernel G).sample ((g.withKernel G).window j)).entry (g.nb.toNat + a)
      (g.my.toNat + b) c i).entry a b c i = _
    rw [ofFn_entry _ ha hb hc]
    have hn' : 0 < (g.withKernel G).shape1.toNat ∧ 0 < (g.withKernel G).shape2.toNat ∧ 0 < (g.withKernel G).shape3.toNat := hn
    unfold Gen.sample
    simp only
    rw [dif_pos hn']
    exact ofFn_entry _ l1 l2 l3 i
  have e : (g.block j).entry a b c i = ((g.withKernel g.kernel).block j).entry a b c i := rfl
  rw [e]
  simp only [key]
  exact vfSample_tendsto (fun k i l => hK _ i l) _ _ _ i

/-! ### Specification -/

/-- Two floating-point values differ by less than `ε` (or are the same special value). -/
def Spec.near (ε : ℝ) (x y : Fl) : Prop := x = y ∨ ∃ a b, x = fin a ∧ y = fin b ∧ |a - b| < ε

/-- Two arrays have the same shape and differ by less than `ε` everywhere. -/
def Spec.fieldNear (ε : ℝ) (f f' : Arr Fl) : Prop :=
  f.n2 = f'.n2 ∧ f.n3 = f'.n3 ∧
    List.Forall₂ (List.Forall₂ (List.Forall₂ fun w w' : Fin 3 → Fl => ∀ k, Spec.near ε (w k) (w' k))) f.planes f'.planes

/-- Two calls that both return an array, the two arrays differing by less than `ε`. -/
def Spec.resultNear (ε : ℝ) (r r' : Except PyErr (Arr Fl)) : Prop :=
  ∃ f f', r = .ok f ∧ r' = .ok f' ∧ Spec.fieldNear ε f f'

theorem Spec.near.add {ε a b : ℝ} (h : |a - b| < ε) (u : Fl) : Spec.near ε (fin a + u) (fin b + u) := by
  cases u with
  | fin x =>
    right
    exact ⟨a + x, b + x, rfl, rfl, by simpa using h⟩
  | nan => left; rfl
  | pinf => left; rfl
  | ninf => left; rfl

theorem forall₂_tab {α : Type} {R : α → α → Prop} (n : ℕ) (f f' : ℕ → α) (h : ∀ i < n, R (f i) (f' i)) :
    List.Forall₂ R (tab n f) (tab n f') := by
  unfold tab
  rw [List.forall₂_map_left_iff, List.forall₂_map_right_iff, List.forall₂_same]
  intro i hi
  exact h i (List.mem_range.1 hi)

theorem sd_tendsto {g : Gen} {ι : Type} {F : Filter ι} {B : ι → Arr ℝ} {f : ι → ℕ → ℕ → ℕ → Fin 3 → ℝ}
    (hB : ∀ t, B t = Arr.ofFn g.Nx g.Ny g.Nz (f t)) {j : ℕ}
    (h : ∀ a b c i, a < g.Nx → b < g.Ny → c < g.Nz → Tendsto (fun t => f t a b c i) F (𝓝 ((g.block j).entry a b c i))) :
    Tendsto (fun t => (B t).sd) F (𝓝 (g.block j).sd) := by
  have e : ∀ u : ℕ → ℕ → ℕ → Fin 3 → ℝ, (Arr.ofFn g.Nx g.Ny g.Nz u).sd = Real.sqrt ((∑ a ∈ Finset.range g.Nx,
      ∑ b ∈ Finset.range g.Ny, ∑ c ∈ Finset.range g.Nz, ∑ i, (u a b c i) ^ 2) / (g.Nx * g.Ny * g.Nz * 3 : ℕ)) := by
    intro u
    unfold Arr.sd
    rw [flat_length, flat_sum u fun x => x ^ 2]
  rw [entry_block j, e]
  simp only [hB, e]
  refine (Real.continuous_sqrt.tendsto _).comp (Tendsto.div_const ?_ _)
  refine tendsto_finset_sum _ fun a ha => tendsto_finset_sum _ fun b hb => tendsto_finset_sum _ fun c hc =>
    tendsto_finset_sum _ fun i _ => ?_
  exact (h a b c i (Finset.mem_range.1 ha) (Finset.mem_range.1 hb) (Finset.mem_range.1 hc)).pow 2

theorem outAt_near_of {g g' : Gen} (hlow : g.low = none) (hlow' : g'.low = none) {p : ProfileArgs} {i j a b c : ℕ}
    (hp : g'.profileAt p c = g.profileAt p c) {ε : ℝ}
    (h : ∀ k, |(g.block j).entry a b c k / (g.block j).sd - (g'.block j).entry a b c k / (g'.block j).sd| < ε) (k : Fin 3) :
    Spec.near ε (g.outAt p i j a b c k) (g'.outAt p i j a b c k) := by
  have e : ∀ G : Gen, G.low = none → ∀ k, G.outAt p i j a b c k = fin ((G.block j).entry a b c k / (G.block j).sd) +
      (if k = 0 then G.profileAt p c else fin 0) := by
    intro G hG k
    unfold Gen.outAt
    rw [hG]
    match k with
    | 0 => simp [add_fin_zero]
    | 1 => simp [add_fin_zero]
    | 2 => simp [add_fin_zero]
  rw [e g hlow, e g' hlow', hp]
  exact Spec.near.add (h k) _

/-- Eventually the normalised values of converging blocks are near. -/
theorem block_near {g : Gen} {ι : Type} {F : Filter ι} {B : ι → Arr ℝ} {f : ι → ℕ → ℕ → ℕ → Fin 3 → ℝ}
    (hB : ∀ t, B t = Arr.ofFn g.Nx g.Ny g.Nz (f t)) {j : ℕ} (hany : (g.block j).any)
    (h : ∀ a b c i, a < g.Nx → b < g.Ny → c < g.Nz → Tendsto (fun t => f t a b c i) F (𝓝 ((g.block j).entry a b c i)))
    {ε : ℝ} (hε : 0 < ε) :
    ∀ᶠ t in F, (B t).any ∧ ∀ a < g.Nx, ∀ b < g.Ny, ∀ c < g.Nz, ∀ k : Fin 3,
      |(g.block j).entry a b c k / (g.block j).sd - (B t).entry a b c k / (B t).sd| < ε := by
  have hsd := sd_tendsto hB h
  have hpos : 0 < (g.block j).sd := by
    have := (sd_mean_square (n1 := g.Nx) (n2 := g.Ny) (n3 := g.Nz) (fun a b c i => (g.block j).entry a b c i)
      (by rw [← entry_block]; exact hany)).1
    rwa [← entry_block] at this
  have h1 : ∀ᶠ t in F, (B t).any := by
    have h0 := hany
    rw [entry_block, any_ofFn] at h0
    obtain ⟨a, ha, b, hb', c, hc, i, hne⟩ := h0
    filter_upwards [(h a b c i ha hb' hc).eventually_ne hne] with t ht
    rw [hB, any_ofFn]
    exact ⟨a, ha, b, hb', c, hc, i, ht⟩
  have h2 : ∀ᶠ t in F, ∀ a ∈ Finset.range g.Nx, ∀ b ∈ Finset.range g.Ny, ∀ c ∈ Finset.range g.Nz,
      ∀ k ∈ (Finset.univ : Finset (Fin 3)), |(g.block j).entry a b c k / (g.block j).sd - f t a b c k / (B t).sd| < ε := by
    rw [eventually_all_finset]
    intro a ha
    rw [eventually_all_finset]
    intro b hb'
    rw [eventually_all_finset]
    intro c hc
    rw [eventually_all_finset]
    intro k _
    have h3 := (h a b c k (Finset.mem_range.1 ha) (Finset.mem_range.1 hb') (Finset.mem_range.1 hc)).div hsd hpos.ne'
    filter_upwards [Metric.tendsto_nhds.1 h3 ε hε] with t ht
    rw [dist_comm, Real.dist_eq] at ht
    exact ht
  filter_upwards [h1, h2] with t ht1 ht2
  refine ⟨ht1, fun a ha b hb c hc k => ?_⟩
  have := ht2 a (Finset.mem_range.2 ha) b (Finset.mem_range.2 hb) c (Finset.mem_range.2 hc) k (Finset.mem_univ _)
  have e : (B t).entry a b c k = f t a b c k := by rw [hB, ofFn_entry _ ha hb hc]
  rw [e]
  exact this

/-- Eventually the blocks of the objects with nearby kernels are valid and their normalised values are near. -/
theorem outAt_near {g : Gen} (hg : g.Good) (hlow : g.low = none) {ι : Type} {F : Filter ι} {K : ι → GenKernel}
    (hK : ∀ k i l, Tendsto (fun t => times1j ((K t).eval k) i l) F (𝓝 (times1j (g.kernel.eval k) i l))) {ε : ℝ} (hε : 0 < ε)
    (j : ℕ) (hany : (g.block j).any) :
    ∀ᶠ t in F, ((g.withKernel (K t)).block j).any ∧ ∀ p i a b c k, a < g.Nx → b < g.Ny → c < g.Nz →
      Spec.near ε (g.outAt p i j a b c k) ((g.withKernel (K t)).outAt p i j a b c k) := by
  have hB : ∀ t, (g.withKernel (K t)).block j =
      Arr.ofFn g.Nx g.Ny g.Nz fun a b c i => ((g.withKernel (K t)).block j).entry a b c i := fun t =>
    entry_block (g := g.withKernel (K t)) j
  have hev := block_near hB hany (fun a b c i ha hb hc => block_tendsto hg hK j a b c i ha hb hc) hε
  filter_upwards [hev] with t ht
  refine ⟨ht.1, fun p i a b c k ha hb hc => ?_⟩
  have hlow' : (g.withKernel (K t)).low = none := hlow
  have hp : (g.withKernel (K t)).profileAt p c = g.profileAt p c := rfl
  exact outAt_near_of hlow hlow' hp (ht.2 a ha b hb c hc) k

theorem run_near {g : Gen} (hg : g.Good) (hlow : g.low = none) {ι : Type} {F : Filter ι} {K : ι → GenKernel}
    (hK : ∀ k i l, Tendsto (fun t => times1j ((K t).eval k) i l) F (𝓝 (times1j (g.kernel.eval k) i l))) {ε : ℝ} (hε : 0 < ε)
    (cs : List (ℕ × ProfileArgs)) :
    ∀ (j : ℕ) (tot : Arr Fl), tot.n2 = g.Ny ∧ tot.n3 = g.Nz → (∀ r ∈ (Gen.run cs (g.st j tot)).1, ∃ f, r = .ok f) →
      ∀ᶠ t in F, ∀ tot', Spec.fieldNear ε tot tot' →
        List.Forall₂ (Spec.resultNear ε) (Gen.run cs (g.st j tot)).1 (Gen.run cs ((g.withKernel (K t)).st j tot')).1 := by
  have hl : g.LowReady := fun lf h => by rw [hlow] at h; cases h
  induction cs with
  | nil =>
    intro j tot _ _
    exact Eventually.of_forall fun t tot' _ => List.Forall₂.nil
  | cons c cs ih =>
    obtain ⟨n, p⟩ := c
    intro j tot ht hok
    rcases generate_st hg hl p n j ht with ⟨h1, h2⟩ | ⟨k, hk, h1, h3, h2⟩
    swap
    · unfold Gen.run at hok
      simp only [h2] at hok
      obtain ⟨f, hf⟩ := hok _ (List.mem_cons_self ..)
      cases hf
    have hrun : Gen.run ((n, p) :: cs) (g.st j tot) =
        (.ok (g.ext tot (g.outs p 0 j n)) :: (Gen.run cs (g.st (j + n) (g.ext tot (g.outs p 0 j n)))).1,
          (Gen.run cs (g.st (j + n) (g.ext tot (g.outs p 0 j n)))).2) := by
      conv_lhs => unfold Gen.run
      simp only [h2]
    rw [hrun] at hok ⊢
    have hnear : ∀ᶠ t in F, ∀ s ∈ Finset.range n, ((g.withKernel (K t)).block (j + s)).any ∧
        ∀ p i a b c k, a < g.Nx → b < g.Ny → c < g.Nz →
          Spec.near ε (g.outAt p i (j + s) a b c k) ((g.withKernel (K t)).outAt p i (j + s) a b c k) := by
      rw [eventually_all_finset]
      intro s hs
      exact outAt_near hg hlow hK hε (j + s) (h1 s (Finset.mem_range.1 hs)).1
    have hih := ih (j + n) (g.ext tot (g.outs p 0 j n)) ⟨rfl, rfl⟩ fun r hr => hok r (List.mem_cons_of_mem _ hr)
    filter_upwards [hnear, hih] with t hn hi tot' htot
    obtain ⟨g', hg'⟩ : ∃ g', g' = g.withKernel (K t) := ⟨_, rfl⟩
    rw [← hg'] at hn hi ⊢
    have good' : g'.Good := by rw [hg']; exact hg
    have hl' : g'.LowReady := fun lf h => by
      have : g'.low = none := by rw [hg']; exact hlow
      rw [this] at h; cases h
    have nx : g'.Nx = g.Nx := by rw [hg']; rfl
    have ny : g'.Ny = g.Ny := by rw [hg']; rfl
    have nz : g'.Nz = g.Nz := by rw [hg']; rfl
    have ht' : tot'.n2 = g'.Ny ∧ tot'.n3 = g'.Nz := by rw [ny, nz, ← htot.1, ← htot.2.1]; exact ht
    have hext : Spec.fieldNear ε (g.ext tot (g.outs p 0 j n)) (g'.ext tot' (g'.outs p 0 j n)) := by
      refine ⟨ny.symm, nz.symm, ?_⟩
      unfold Gen.ext
      refine List.rel_append htot.2.2 ?_
      unfold Gen.outs
      rw [List.flatMap_def, List.flatMap_def]
      refine List.rel_flatten ?_
      rw [nx, ny, nz]
      refine forall₂_tab n _ _ fun s hs => ?_
      unfold Arr.ofFn
      exact forall₂_tab _ _ _ fun a ha => forall₂_tab _ _ _ fun b hb => forall₂_tab _ _ _ fun c hc k =>
        (hn s (Finset.mem_range.2 hs)).2 p (0 + s) a b c k ha hb hc
    rcases generate_st good' hl' p n j ht' with ⟨h4, h5⟩ | ⟨k, hk, -, h6, -⟩
    · have hrun' : Gen.run ((n, p) :: cs) (g'.st j tot') =
          (.ok (g'.ext tot' (g'.outs p 0 j n)) :: (Gen.run cs (g'.st (j + n) (g'.ext tot' (g'.outs p 0 j n)))).1,
            (Gen.run cs (g'.st (j + n) (g'.ext tot' (g'.outs p 0 j n)))).2) := by
        conv_lhs => unfold Gen.run
        simp only [h5]
      rw [hrun']
      exact List.Forall₂.cons ⟨_, _, rfl, rfl, hext⟩ (hi _ hext)
    · exact absurd ⟨(hn k (Finset.mem_range.2 hk)).1, (h1 k hk).2⟩ h6

/-- Constructor calls that differ in the kernel and in a time scale leading to the same buffer. -/
theorem genInit_buffer {env : GenEnv} {a a' : GenArgs} {g : Gen} {q : ℕ} (h : genInit env a = (.ok g, q)) (hlow : a.low = none)
    {K K' : GenKernel} {L T T' : ℝ} (hk : genScales env a = .ok (K, L, T)) (hk' : genScales env a' = .ok (K', L, T'))
    (hd : a'.d1 = a.d1 ∧ a'.d2 = a.d2 ∧ a'.d3 = a.d3 ∧ a'.l1 = a.l1 ∧ a'.l2 = a.l2 ∧ a'.l3 = a.l3 ∧ a'.bn = a.bn ∧
      a'.seed = a.seed ∧ a'.low = a.low)
    (hn : ⌈3 * T' * L / (a.d1 / (2 ^ a.l1 + 1 : ℕ))⌉ = ⌈3 * T * L / (a.d1 / (2 ^ a.l1 + 1 : ℕ))⌉) :
    genInit env a' = (.ok (g.withKernel K'), q) := by
  obtain ⟨-, -, -, -, -, -, -, -, ⟨hd1, -⟩, -⟩ := genInit_ok h
  obtain ⟨e1, e2, e3, e4, e5, e6, e7, e8, e9⟩ := hd
  unfold genInit at h ⊢
  rw [hk] at h
  rw [hk']
  simp only [e1, e2, e3, e4, e5, e6, e7, e8, e9] at h ⊢
  have hz : a.d1 / (2 ^ a.l1 + 1 : ℕ) ≠ 0 := div_ne_zero hd1 (by positivity)
  have hc : ceilDiv (3 * T' * L) (a.d1 / (2 ^ a.l1 + 1 : ℕ)) = ceilDiv (3 * T * L) (a.d1 / (2 ^ a.l1 + 1 : ℕ)) := by
    unfold ceilDiv
    rw [if_neg hz, if_neg hz, hn]
  rw [hc]
  split at h <;> try (simp at h; done)
  rename_i nb my mz h1 h2 h3
  split at h
  · simp at h
  rename_i hc
  simp only [h1, h2, h3]
  rw [if_neg hc]
  rw [grfInit_vf] at h ⊢
  rw [hlow] at h ⊢
  simp only [Prod.mk.injEq, Except.ok.injEq] at h ⊢
  obtain ⟨rfl, rfl⟩ := h
  exact ⟨rfl, rfl⟩

/-- The kernel of a generator for the models without a file. -/
theorem genScales_classic (env : GenEnv) {a : GenArgs} {L T e : ℝ} (hm : a.model = "VK" ∨ a.model = "Mann") (hL : a.length = some L)
    (hT : a.time = some T) (he : a.energy = some e) (hz : 0 < a.zref) :
    genScales env a = .ok (if a.model = "VK" then .vk L (e * a.ustar ^ 2 * a.zref ^ (-2 / 3 : ℝ))
      else .mann env.hyp L (e * a.ustar ^ 2 * a.zref ^ (-2 / 3 : ℝ)) T, L, T) := by
  unfold genScales
  have m1 : a.model ∈ ["DRD", "VK", "Mann"] := by rcases hm with h | h <;> simp [h]
  have m2 : a.model ≠ "DRD" := by rcases hm with h | h <;> rw [h] <;> decide
  rw [if_neg (not_not.2 m1), if_neg m2, hL, hT, he]
  simp only [heightPower_pos hz]

/-- **C122** The field of the Mann model depends continuously on the time scale as long as the size of the buffer does not change: for
every history of calls, all successful, and every `ε` there is a neighbourhood of the time scale in which every call returns a
field of the same shape that differs by less than `ε` everywhere. -/
theorem C122_continuous {env : GenEnv} (hh : ∀ x < 0, 0 < env.hyp x) {a : GenArgs} (hm : a.model = "Mann") (ha : a.PosScales)
    (hz : 0 < a.zref) {L T0 e : ℝ} (hL : a.length = some L) (hT : a.time = some T0) (he : a.energy = some e) (he0 : 0 ≤ e)
    (hlow : a.low = none) {g : Gen} {q : ℕ} (h : genInit env a = (.ok g, q)) (cs : List (ℕ × ProfileArgs))
    (hok : ∀ r ∈ (g.run cs).1, ∃ f, r = .ok f) {ε : ℝ} (hε : 0 < ε) :
    ∃ δ > 0, ∀ T, |T - T0| < δ →
      ⌈3 * T * L / (a.d1 / (2 ^ a.l1 + 1 : ℕ))⌉ = ⌈3 * T0 * L / (a.d1 / (2 ^ a.l1 + 1 : ℕ))⌉ →
      ∃ g', genInit env { a with time := some T } = (.ok g', q) ∧ List.Forall₂ (Spec.resultNear ε) (g.run cs).1 (g'.run cs).1 := by
  have hLp : 0 < L := by
    obtain ⟨L', T', h1, h2, h3, h4⟩ := ha.2.2 (by rw [hm]; decide)
    rw [hL] at h1
    obtain rfl := Option.some.inj h1
    exact h3
  have hE : 0 ≤ e * a.ustar ^ 2 * a.zref ^ (-2 / 3 : ℝ) := by positivity
  have hmv : ¬ a.model = "VK" := by rw [hm]; decide
  have hk := genScales_classic env (Or.inr hm) hL hT he hz
  rw [if_neg hmv] at hk
  obtain ⟨K, L', T', hk2, hf, -, -, -, -, -, hker, -, -, -, hl, -⟩ := genInit_ok h
  rw [hk] at hk2
  simp only [Except.ok.injEq, Prod.mk.injEq] at hk2
  have hker' : g.kernel = .mann env.hyp L (e * a.ustar ^ 2 * a.zref ^ (-2 / 3 : ℝ)) T0 := by rw [hker, ← hk2.1]
  have hg := genInit_good ha h
  have hK : ∀ k i l, Tendsto (fun t => times1j ((GenKernel.mann env.hyp L (e * a.ustar ^ 2 * a.zref ^ (-2 / 3 : ℝ)) t).eval k) i l)
      (𝓝 T0) (𝓝 (times1j (g.kernel.eval k) i l)) := by
    intro k i l
    rw [hker']
    exact (mann_cont hLp hE hh k i l).tendsto T0
  have hst : g.st 0 ⟨g.Ny, g.Nz, []⟩ = g := hf.st
  have hev := run_near hg (hl hlow) hK hε cs 0 ⟨g.Ny, g.Nz, []⟩ ⟨rfl, rfl⟩ (by rw [hst]; exact hok)
  rw [hst] at hev
  obtain ⟨δ, hδ, hball⟩ := Metric.eventually_nhds_iff.1 hev
  refine ⟨δ, hδ, fun T hTd hceil => ?_⟩
  have hk' := genScales_classic env (a := { a with time := some T }) (Or.inr hm) hL rfl he hz
  rw [if_neg hmv] at hk'
  refine ⟨_, genInit_buffer h hlow hk hk' ⟨rfl, rfl, rfl, rfl, rfl, rfl, rfl, rfl, rfl⟩ hceil, ?_⟩
  have hr := hball (by rw [Real.dist_eq]; exact hTd) ⟨g.Ny, g.Nz, []⟩ ⟨rfl, rfl, List.Forall₂.nil⟩
  have hf' : (g.withKernel (.mann env.hyp L (e * a.ustar ^ 2 * a.zref ^ (-2 / 3 : ℝ)) T)).Fresh := hf
  have e3 : (g.withKernel (.mann env.hyp L (e * a.ustar ^ 2 * a.zref ^ (-2 / 3 : ℝ)) T)).st 0 ⟨g.Ny, g.Nz, []⟩ = _ := hf'.st
  rw [e3] at hr
  exact hr

/-- **C122** The size of the buffer is the same for all slightly smaller time scales, and for all slightly larger ones unless `3 T L`
is a whole number of grid cells. -/
theorem C122_buffer {L T0 dx : ℝ} (hL : 0 < L) (hdx : 0 < dx) :
    ∃ δ > 0, ∀ T, |T - T0| < δ → (T ≤ T0 ∨ ∀ n : ℤ, 3 * T0 * L ≠ n * dx) → ⌈3 * T * L / dx⌉ = ⌈3 * T0 * L / dx⌉ := by
  obtain ⟨x0, hx0⟩ : ∃ x0, x0 = 3 * T0 * L / dx := ⟨_, rfl⟩
  obtain ⟨c, hc⟩ : ∃ c, c = 3 * L / dx := ⟨_, rfl⟩
  have hcp : 0 < c := by rw [hc]; positivity
  have hlo : (⌈x0⌉ : ℝ) - 1 < x0 := by have := Int.ceil_lt_add_one x0; linarith
  have hhi : x0 ≤ ⌈x0⌉ := Int.le_ceil x0
  obtain ⟨δ, hδ, hδ1, hδ2⟩ : ∃ δ > 0, δ * c ≤ x0 - (⌈x0⌉ - 1) ∧ (x0 ≠ ⌈x0⌉ → δ * c ≤ ⌈x0⌉ - x0) := by
    by_cases hx : x0 = ⌈x0⌉
    · exact ⟨(x0 - (⌈x0⌉ - 1)) / c, div_pos (by linarith) hcp, by rw [div_mul_cancel₀ _ hcp.ne'], fun h => absurd hx h⟩
    · have h1 : 0 < (⌈x0⌉ : ℝ) - x0 := by
        have := lt_of_le_of_ne hhi hx
        linarith
      refine ⟨min ((x0 - (⌈x0⌉ - 1)) / c) ((⌈x0⌉ - x0) / c), lt_min (div_pos (by linarith) hcp) (div_pos h1 hcp), ?_, fun _ => ?_⟩
      · exact (mul_le_mul_of_nonneg_right (min_le_left _ _) hcp.le).trans (by rw [div_mul_cancel₀ _ hcp.ne'])
      · exact (mul_le_mul_of_nonneg_right (min_le_right _ _) hcp.le).trans (by rw [div_mul_cancel₀ _ hcp.ne'])
  refine ⟨δ, hδ, fun T hT hcase => ?_⟩
  have ex : 3 * T * L / dx = x0 + (T - T0) * c := by rw [hx0, hc]; ring
  rw [← hx0, ex, Int.ceil_eq_iff]
  obtain ⟨t1, t2⟩ := abs_lt.1 hT
  have m1 : -(δ * c) < (T - T0) * c := by nlinarith
  have m2 : (T - T0) * c < δ * c := by nlinarith
  refine ⟨by linarith, ?_⟩
  rcases hcase with hle | hne
  · have : (T - T0) * c ≤ 0 := mul_nonpos_of_nonpos_of_nonneg (by linarith) hcp.le
    linarith
  · have hx : x0 ≠ ⌈x0⌉ := by
      intro hx
      refine hne ⌈x0⌉ ?_
      rw [← hx, hx0]
      field_simp
    have := hδ2 hx
    linarith

/-- **C122** As the time scale vanishes the field of the Mann model tends to the field of the isotropic model with the same
arguments, once the time scale is so small that the buffer has its minimal size. -/
theorem C122_isotropic {env : GenEnv} (hh : ∀ x < 0, 0 < env.hyp x) {a : GenArgs} (hm : a.model = "VK") (ha : a.PosScales)
    (hz : 0 < a.zref) {L T0 e : ℝ} (hL : a.length = some L) (hT : a.time = some T0) (he : a.energy = some e) (he0 : 0 ≤ e)
    (hT0 : 3 * T0 * L ≤ a.d1 / (2 ^ a.l1 + 1 : ℕ))
    (hlow : a.low = none) {g : Gen} {q : ℕ} (h : genInit env a = (.ok g, q)) (cs : List (ℕ × ProfileArgs))
    (hok : ∀ r ∈ (g.run cs).1, ∃ f, r = .ok f) {ε : ℝ} (hε : 0 < ε) :
    ∃ δ > 0, ∀ T > 0, T < δ → ∃ g', genInit env { a with model := "Mann", time := some T } = (.ok g', q) ∧
      List.Forall₂ (Spec.resultNear ε) (g.run cs).1 (g'.run cs).1 := by
  obtain ⟨hLp, hTp⟩ : 0 < L ∧ 0 < T0 := by
    obtain ⟨L', T', h1, h2, h3, h4⟩ := ha.2.2 (by rw [hm]; decide)
    rw [hL] at h1
    rw [hT] at h2
    obtain rfl := Option.some.inj h1
    obtain rfl := Option.some.inj h2
    exact ⟨h3, h4⟩
  have hE : 0 ≤ e * a.ustar ^ 2 * a.zref ^ (-2 / 3 : ℝ) := by positivity
  have hdx : 0 < a.d1 / (2 ^ a.l1 + 1 : ℕ) := by
    have : 0 < 3 * T0 * L := by positivity
    linarith
  have hk := genScales_classic env (Or.inl hm) hL hT he hz
  rw [if_pos hm] at hk
  obtain ⟨K, L', T', hk2, hf, -, -, -, -, -, hker, -, -, -, hl, -⟩ := genInit_ok h
  rw [hk] at hk2
  simp only [Except.ok.injEq, Prod.mk.injEq] at hk2
  have hker' : g.kernel = .vk L (e * a.ustar ^ 2 * a.zref ^ (-2 / 3 : ℝ)) := by rw [hker, ← hk2.1]
  have hg := genInit_good ha h
  have hK : ∀ k i l, Tendsto (fun t => times1j ((GenKernel.mann env.hyp L (e * a.ustar ^ 2 * a.zref ^ (-2 / 3 : ℝ)) t).eval k) i l)
      (𝓝 0) (𝓝 (times1j (g.kernel.eval k) i l)) := by
    intro k i l
    rw [hker']
    have := (mann_cont hLp hE hh k i l).tendsto 0
    rw [mann_unsheared hLp hE hh] at this
    exact this
  have hst : g.st 0 ⟨g.Ny, g.Nz, []⟩ = g := hf.st
  have hev := run_near hg (hl hlow) hK hε cs 0 ⟨g.Ny, g.Nz, []⟩ ⟨rfl, rfl⟩ (by rw [hst]; exact hok)
  rw [hst] at hev
  obtain ⟨δ, hδ, hball⟩ := Metric.eventually_nhds_iff.1 hev
  refine ⟨min δ T0, lt_min hδ hTp, fun T hT0' hTd => ?_⟩
  have hk' := genScales_classic env (a := { a with model := "Mann", time := some T }) (Or.inr rfl) hL rfl he hz
  rw [if_neg (by change ¬ "Mann" = "VK"; decide)] at hk'
  have one : ∀ x : ℝ, 0 < x → x ≤ a.d1 / (2 ^ a.l1 + 1 : ℕ) → ⌈x / (a.d1 / (2 ^ a.l1 + 1 : ℕ))⌉ = 1 := by
    intro x h0 h1
    rw [Int.ceil_eq_iff]
    constructor
    · simp only [Int.cast_one, sub_self]
      exact div_pos h0 hdx
    · rw [Int.cast_one, div_le_one hdx]
      exact h1
  have hT1 : T < T0 := lt_of_lt_of_le hTd (min_le_right _ _)
  have hceil : ⌈3 * T * L / (a.d1 / (2 ^ a.l1 + 1 : ℕ))⌉ = ⌈3 * T0 * L / (a.d1 / (2 ^ a.l1 + 1 : ℕ))⌉ := by
    rw [one (3 * T0 * L) (by positivity) hT0, one (3 * T * L) (by positivity)]
    have : 3 * T * L ≤ 3 * T0 * L := by
      have := hLp.le
      gcongr
    linarith
  refine ⟨_, genInit_buffer h hlow hk hk' ⟨rfl, rfl, rfl, rfl, rfl, rfl, rfl, rfl, rfl⟩ hceil, ?_⟩
  have hr := hball (y := T) (by rw [Real.dist_eq, sub_zero, abs_of_pos hT0']; exact lt_of_lt_of_le hTd (min_le_left _ _))
    ⟨g.Ny, g.Nz, []⟩ ⟨rfl, rfl, List.Forall₂.nil⟩
  have hf' : (g.withKernel (.mann env.hyp L (e * a.ustar ^ 2 * a.zref ^ (-2 / 3 : ℝ)) T)).Fresh := hf
  have e3 : (g.withKernel (.mann env.hyp L (e * a.ustar ^ 2 * a.zref ^ (-2 / 3 : ℝ)) T)).st 0 ⟨g.Ny, g.Nz, []⟩ = _ := hf'.st
  rw [e3] at hr
  exact hr

open MeasureTheory ProbabilityTheory in
/-- **C122** With independent noise without atoms the limit holds with probability one for all histories of calls with valid
profiles. -/
theorem C122_almost_surely {Ω : Type} [MeasurableSpace Ω] {μ : Measure Ω} [IsProbabilityMeasure μ] {ξ : ℕ → Ω → ℝ}
    (hmeas : ∀ n, Measurable (ξ n)) (hi : iIndepFun ξ μ) (hat : ∀ n x, μ {ω | ξ n ω = x} = 0) {env : GenEnv}
    (hh : ∀ x < 0, 0 < env.hyp x) {a : GenArgs} (hm : a.model = "VK") (ha : a.PosScales) (hen : a.PosEnergy) {L T0 e : ℝ}
    (hL : a.length = some L) (hT : a.time = some T0) (he : a.energy = some e)
    (hT0 : 3 * T0 * L ≤ a.d1 / (2 ^ a.l1 + 1 : ℕ)) (hlow : a.low = none) :
    ∀ᵐ ω ∂μ, ∃ g q, genInit (env.withStream fun n => ξ n ω) a = (.ok g, q) ∧
      ∀ cs : List (ℕ × ProfileArgs), (∀ c ∈ cs, c.2.Valid) → ∀ ε > 0, ∃ δ > 0, ∀ T > 0, T < δ →
        ∃ g', genInit (env.withStream fun n => ξ n ω) { a with model := "Mann", time := some T } = (.ok g', q) ∧
          List.Forall₂ (Spec.resultNear ε) (g.run cs).1 (g'.run cs).1 := by
  obtain ⟨hu, hz, hE⟩ := hen
  have he0 : 0 < e := hE (by rw [hm]; decide) e he
  obtain ⟨hLp, hTp⟩ : 0 < L ∧ 0 < T0 := by
    obtain ⟨L', T', h1, h2, h3, h4⟩ := ha.2.2 (by rw [hm]; decide)
    rw [hL] at h1
    rw [hT] at h2
    obtain rfl := Option.some.inj h1
    obtain rfl := Option.some.inj h2
    exact ⟨h3, h4⟩
  obtain ⟨g, hg⟩ := genInit_exists env (Or.inl hm) hL hT he hz.ne' ha.1 ⟨hLp.le, hTp.le⟩ hlow
  have hK : g.kernel.Valid := by
    obtain ⟨K, L', T', hk2, -, -, -, -, -, -, hker, -⟩ := genInit_ok hg
    rw [genScales_classic env (Or.inl hm) hL hT he hz, if_pos hm] at hk2
    simp only [Except.ok.injEq, Prod.mk.injEq] at hk2
    rw [hker, ← hk2.1]
    exact ⟨hLp, by positivity⟩
  filter_upwards [C85_almost_surely hmeas hi hat ha ⟨hu, hz, hE⟩ hg hK] with ω hω
  obtain ⟨g', hg', hall⟩ := hω
  exact ⟨g', _, hg', fun cs hcs ε hε => C122_isotropic (env := env.withStream fun n => ξ n ω) hh hm ha hz hL hT he he0.le hT0 hlow hg'
    cs (hall cs hcs) hε⟩

/-- Arguments meeting the hypotheses of `C122_isotropic` and `C122_almost_surely` (length scale 50, time scale 0.05, cells of
500/65), and of `C122_continuous`. -/
example (env : GenEnv) :
    ({ exampleArgs with time := some 0.05 } : GenArgs).PosScales ∧ ({ exampleArgs with time := some 0.05 } : GenArgs).PosEnergy ∧
    3 * (0.05 : ℝ) * 50 ≤ exampleArgs.d1 / (2 ^ exampleArgs.l1 + 1 : ℕ) ∧
    ({ exampleArgs with model := "Mann" } : GenArgs).PosScales ∧
    ∃ g, genInit env { exampleArgs with model := "Mann" } = (.ok g, env.globPos) := by
  refine ⟨⟨⟨by norm_num [exampleArgs], by norm_num [exampleArgs], by norm_num [exampleArgs]⟩, fun h => absurd h (by decide),
    fun _ => ⟨50, 0.05, rfl, rfl, by norm_num, by norm_num⟩⟩,
    ⟨by norm_num [exampleArgs], by norm_num [exampleArgs], fun _ e h => ?_⟩, by norm_num [exampleArgs],
    ⟨⟨by norm_num [exampleArgs], by norm_num [exampleArgs], by norm_num [exampleArgs]⟩, fun h => ?_,
      fun _ => ⟨50, 3, rfl, rfl, by norm_num, by norm_num⟩⟩, ?_⟩
  · obtain rfl := Option.some.inj h
    norm_num
  · exact absurd h (by decide)
  · exact genInit_exists env (Or.inr rfl) (L := 50) (T := 3) (e := 0.5) rfl rfl rfl (by norm_num [exampleArgs])
      ⟨by norm_num [exampleArgs], by norm_num [exampleArgs], by norm_num [exampleArgs]⟩ ⟨by norm_num, by norm_num⟩ rfl

end
end Verif
