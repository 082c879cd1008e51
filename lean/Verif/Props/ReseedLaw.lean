import Verif.Props.Reseed
import Verif.Props.GeneratorLaw

/-!
# Reseeding a generator with independent values: C129
-/

namespace Verif
open Fl MeasureTheory ProbabilityTheory

noncomputable section
open Classical

variable {Ω : Type} [MeasurableSpace Ω] {μ : Measure Ω}

/-- The values used: `N` of the first stream, then the second. -/
theorem splice_stream {ξ1 ξ2 : ℕ → Ω → ℝ} {ν : Measure ℝ} (hm : ∀ s, Measurable (Sum.elim ξ1 ξ2 s))
    (hi : iIndepFun (fun s : ℕ ⊕ ℕ => Sum.elim ξ1 ξ2 s) μ) (hl : ∀ s, μ.map (Sum.elim ξ1 ξ2 s) = ν) (N : ℕ) :
    Spec.Stream μ (fun n ω => Spec.splice (fun n => ξ1 n ω) N (fun n => ξ2 n ω) n) ν := by
  have e : ∀ n, (fun ω => Spec.splice (fun n => ξ1 n ω) N (fun n => ξ2 n ω) n) =
      Sum.elim ξ1 ξ2 (if n < N then .inl n else .inr (n - N)) := by
    intro n
    funext ω
    unfold Spec.splice
    split_ifs <;> rfl
  refine ⟨fun n => ?_, ?_, fun n => ?_⟩
  · change Measurable (fun ω => Spec.splice (fun n => ξ1 n ω) N (fun n => ξ2 n ω) n)
    rw [e]; exact hm _
  · have h := hi.precomp (g := fun n : ℕ => if n < N then Sum.inl n else Sum.inr (n - N)) ?_
    · have e2 : (fun n ω => Spec.splice (fun n => ξ1 n ω) N (fun n => ξ2 n ω) n) =
          fun n => Sum.elim ξ1 ξ2 (if n < N then .inl n else .inr (n - N)) := funext e
      rw [e2]
      exact h
    · intro n m h
      simp only at h
      by_cases h1 : n < N <;> by_cases h2 : m < N
      · rw [if_pos h1, if_pos h2] at h; exact Sum.inl.inj h
      · rw [if_pos h1, if_neg h2] at h; cases h
      · rw [if_neg h1, if_pos h2] at h; cases h
      · rw [if_neg h1, if_neg h2] at h
        have := Sum.inr.inj h
        omega
  · change μ.map (fun ω => Spec.splice (fun n => ξ1 n ω) N (fun n => ξ2 n ω) n) = ν
    rw [e]; exact hl _

/-- **C129** (law).  Values of the first stream before and of an independent second stream after a reseeding: with probability one
everything returned before and after it is what an object that is never reseeded returns from a third stream, which has the law of
the other two.  So a reseeding with new independent values changes no probability of any event about the returned fields. -/
theorem C129_law [IsProbabilityMeasure μ] {ξ1 ξ2 : ℕ → Ω → ℝ} {ν : Measure ℝ} [NullSingletonClass ν]
    (hm : ∀ s, Measurable (Sum.elim ξ1 ξ2 s)) (hi : iIndepFun (fun s : ℕ ⊕ ℕ => Sum.elim ξ1 ξ2 s) μ)
    (hl : ∀ s, μ.map (Sum.elim ξ1 ξ2 s) = ν) {env : GenEnv} {a : GenArgs} (hp : a.PosScales) (he : a.PosEnergy) {g : Gen} {q : ℕ}
    (h : genInit env a = (.ok g, q)) (hK : g.kernel.Valid) (cs : List (ℕ × ProfileArgs)) (hv : ∀ c ∈ cs, c.2.Valid) :
    ∃ ζ : ℕ → Ω → ℝ, Spec.Stream μ ζ ν ∧ ∀ᵐ ω ∂μ, ∃ g1 g2,
      genInit (env.withStream fun n => ξ1 n ω) a = (.ok g1, q) ∧ genInit (env.withStream fun n => ζ n ω) a = (.ok g2, q) ∧
      (g1.run cs).1 = (g2.run cs).1 ∧
      ∀ (env' : GenEnv) (entropy : ℕ → ℝ) (seed : Option ℕ), (seedStream env' entropy seed = fun n => ξ2 n ω) →
        ∀ ds, (((g1.run cs).2.reseed env' entropy seed).run ds).1 = ((g2.run cs).2.run ds).1 ∧
          (((g1.run cs).2.reseed env' entropy seed).run ds).2.total = ((g2.run cs).2.run ds).2.total ∧
          ((∀ c ∈ ds, c.2.Valid) → ∀ r ∈ (((g1.run cs).2.reseed env' entropy seed).run ds).1, ∃ f, r = .ok f) := by
  obtain ⟨N, hN⟩ : ∃ N, N = ((g.st (cs.map Prod.fst).sum ⟨g.Ny, g.Nz, []⟩).pos) := ⟨_, rfl⟩
  have hζ := splice_stream hm hi hl N
  refine ⟨_, hζ, ?_⟩
  have hg := genInit_good hp h
  obtain ⟨K, L, T, hs, hf, hlow, -, -, -, -, hk, -⟩ := genInit_ok h
  have hE : g.kernel.Energetic := by rw [hk]; exact genScales_energetic he hs
  have hi1 : iIndepFun ξ1 μ := hi.precomp (g := Sum.inl) Sum.inl_injective
  have hat : ∀ n x, μ {ω | ξ1 n ω = x} = 0 := by
    intro n x
    have h2 : ν {x} = 0 := measure_singleton x
    rw [← hl (.inl n), Measure.map_apply (hm (.inl n)) (measurableSet_singleton x)] at h2
    exact h2
  have hatζ : ∀ n x, μ {ω | Spec.splice (fun n => ξ1 n ω) N (fun n => ξ2 n ω) n = x} = 0 := by
    intro n x
    have h2 : ν {x} = 0 := measure_singleton x
    rw [← hζ.2.2 n, Measure.map_apply (hζ.1 n) (measurableSet_singleton x)] at h2
    exact h2
  filter_upwards [blocks_any (fun n => hm (.inl n)) hi1 hat hg (genInit_regular hp.1 h) hK hE,
    blocks_any hζ.1 hζ.2.1 hatζ hg (genInit_regular hp.1 h) hK hE] with ω hω hω2
  have hω : ∀ j, ((g.withStream fun n => ξ1 n ω).block j).any := hω
  refine ⟨_, _, genInit_stream h _, genInit_stream h _, ?_⟩
  obtain ⟨G, hG⟩ : ∃ G, G = g.withStream fun n => ξ1 n ω := ⟨_, rfl⟩
  have hfG : G.Fresh := by rw [hG]; exact hf
  have hgG : G.Good := by rw [hG]; exact hg
  have hlG : G.LowReady := by rw [hG]; exact hlow
  have hpos : G.pos = 0 := hfG.2.1
  have h2 : g.withStream (fun n => Spec.splice (fun n => ξ1 n ω) N (fun n => ξ2 n ω) n) =
      G.reading (Spec.splice (fun n => ξ1 n ω) N fun n => ξ2 n ω) 0 := by
    rw [← hpos, hG]; rfl
  have hf2 : (g.withStream fun n => Spec.splice (fun n => ξ1 n ω) N (fun n => ξ2 n ω) n).Fresh := hf
  have all2 : ∀ ds : List (ℕ × ProfileArgs), (∀ c ∈ ds, c.2.Valid) →
      ∀ r ∈ (((g.withStream fun n => Spec.splice (fun n => ξ1 n ω) N (fun n => ξ2 n ω) n).run cs).2.run ds).1, ∃ f, r = .ok f := by
    intro ds hds r hr
    have := run_ok (g := g.withStream fun n => Spec.splice (fun n => ξ1 n ω) N (fun n => ξ2 n ω) n) hg hlow hω2 (cs ++ ds)
      (fun c hc => (List.mem_append.1 hc).elim (hv c) (hds c)) 0 ⟨g.Ny, g.Nz, []⟩ ⟨rfl, rfl⟩
    have e0 := hf2.st
    have e0' : (g.withStream fun n => Spec.splice (fun n => ξ1 n ω) N (fun n => ξ2 n ω) n).st 0 ⟨g.Ny, g.Nz, []⟩ = _ := e0
    rw [e0', run_append] at this
    exact this r (List.mem_append_right _ hr)
  rw [h2] at all2 ⊢
  rw [← hG] at hω ⊢
  have ok := run_ok hgG hlG hω cs hv 0 ⟨G.Ny, G.Nz, []⟩ ⟨rfl, rfl⟩
  obtain ⟨j', k', tot', e', -, -, -, -, b⟩ := run_st hgG hlG cs 0 0 ⟨G.Ny, G.Nz, []⟩ ⟨rfl, rfl, by simp, fun p hp => by cases hp⟩
  obtain rfl := (b ok).2
  rw [hfG.st] at e'
  obtain ⟨d, d1, -, d3⟩ := run_blind cs G
  have hd : d = N := by
    have := congrArg Gen.pos e'
    rw [d1, hpos] at this
    have e0 : (G.st (0 + (cs.map Prod.fst).sum) tot').pos = N := by
      rw [hN, hG, zero_add]
      rfl
    omega
  subst hd
  have e3 := d3 (Spec.splice (fun n => ξ1 n ω) d fun n => ξ2 n ω) 0 fun n hn => by
    rw [zero_add, splice_lt hn, hpos, zero_add, hG]
    rfl
  rw [e3] at all2 ⊢
  refine ⟨rfl, fun env' entropy seed hsd ds => ?_⟩
  simp only
  obtain ⟨d', -, -, d5⟩ := run_blind ds ((G.run cs).2.reading (Spec.splice (fun n => ξ1 n ω) d fun n => ξ2 n ω) (0 + d))
  have e5 := d5 (fun n => ξ2 n ω) 0 fun n _ => by
    have e6 := splice_ge (fun n => ξ1 n ω) (fun n => ξ2 n ω) d n
    rw [zero_add, zero_add]
    exact e6.symm
  have e7 : (G.run cs).2.reseed env' entropy seed =
      ((G.run cs).2.reading (Spec.splice (fun n => ξ1 n ω) d fun n => ξ2 n ω) (0 + d)).reading (fun n => ξ2 n ω) 0 := by
    unfold Gen.reseed Gen.reading
    rw [hsd]
  rw [e7, e5]
  exact ⟨rfl, rfl, fun hds => all2 ds hds⟩

/-- Streams, arguments and histories meeting the hypotheses of the theorems of C129: an object with normal values makes a call,
is reseeded with other independent normal values, and all further calls succeed. -/
example (env : GenEnv) : exampleArgs.PosScales ∧
    ∃ (γ ξ : ℕ → ℝ) (g : Gen) (old : Arr ℝ), genInit (env.withStream γ) exampleArgs = (.ok g, env.globPos) ∧
      (g.run [(1, ⟨90, 10, 0.1, "LOG", none⟩)]).2.noise = some old ∧
      ∀ n, ∀ r ∈ (((g.run [(1, ⟨90, 10, 0.1, "LOG", none⟩)]).2.reseed env ξ none).run [(n, ⟨90, 10, 0.1, "LOG", none⟩)]).1,
        ∃ f, r = .ok f := by
  obtain ⟨h1, h2, ⟨g, hg, hK⟩, -⟩ := exampleArgs_physical env
  have hv : (⟨90, 10, 0.1, "LOG", none⟩ : ProfileArgs).Valid := ⟨Or.inl rfl, by norm_num, by norm_num, by norm_num⟩
  have : NullSingletonClass (gaussianReal 0 1) := nullSingletonClass_gaussianReal one_ne_zero
  have e : ∀ s : ℕ ⊕ ℕ, Sum.elim (fun n (ω : ℕ ⊕ ℕ → ℝ) => ω (.inl n)) (fun n ω => ω (.inr n)) s = fun ω => ω s := by
    intro s; cases s <;> rfl
  obtain ⟨ζ, -, hζ⟩ := C129_law (μ := Measure.infinitePi fun _ : ℕ ⊕ ℕ => gaussianReal 0 1) (ν := gaussianReal 0 1)
    (ξ1 := fun n ω => ω (.inl n)) (ξ2 := fun n ω => ω (.inr n)) (fun s => by rw [e]; exact measurable_pi_apply s)
    (by
      have := iIndepFun_infinitePi (P := fun _ : ℕ ⊕ ℕ => gaussianReal 0 1) (X := fun _ x => x) fun _ => measurable_id
      simp only [e]
      exact this)
    (fun s => by rw [e]; exact Measure.infinitePi_map_eval (fun _ => gaussianReal 0 1) s) h1 h2 hg hK
    [(1, ⟨90, 10, 0.1, "LOG", none⟩)] (fun c hc => by rw [List.mem_singleton.1 hc]; exact hv)
  obtain ⟨ω, g1, g2, k1, k2, k3, k4⟩ := hζ.exists
  have hd : ∃ old, (g1.run [(1, ⟨90, 10, 0.1, "LOG", none⟩)]).2.noise = some old := by
    obtain ⟨K, L, T, hs, hf, hlow, -⟩ := genInit_ok k1
    rw [run_one]
    rcases generate_st (genInit_good h1 k1) hlow ⟨90, 10, 0.1, "LOG", none⟩ 1 0 (tot := ⟨g1.Ny, g1.Nz, []⟩) ⟨rfl, rfl⟩ with
      ⟨-, h⟩ | ⟨k, hk, -, -, h⟩
    · rw [hf.st] at h
      rw [h]
      exact ⟨_, rfl⟩
    · rw [hf.st] at h
      rw [h]
      exact ⟨_, rfl⟩
  obtain ⟨old, hold⟩ := hd
  exact ⟨h1, _, fun n => ω (.inr n), g1, old, k1, hold, fun n => (k4 env _ none rfl _).2.2 fun c hc => by
    rw [List.mem_singleton.1 hc]; exact hv⟩

/-- The noise array of the example has three times as many planes as a block when `blend_num` is 13, as in `C129_repeat`. -/
example (env : GenEnv) : { exampleArgs with bn := 13 }.PosScales ∧
    ∃ g, genInit env { exampleArgs with bn := 13 } = (.ok g, env.globPos) ∧ g.shape1.toNat = 3 * (2 ^ exampleArgs.l1 + 1) := by
  obtain ⟨h1, -⟩ := exampleArgs_physical env
  refine ⟨h1, ?_⟩
  obtain ⟨g, hg⟩ := genInit_exists env (a := { exampleArgs with bn := 13 }) (Or.inl rfl) (L := 50) (T := 3) (e := 0.5)
    rfl rfl rfl (by norm_num [exampleArgs])
    ⟨by norm_num [exampleArgs], by norm_num [exampleArgs], by norm_num [exampleArgs]⟩ ⟨by norm_num, by norm_num⟩ rfl
  refine ⟨g, hg, ?_⟩
  obtain ⟨K, L, T, hs, -, -, -, ⟨l1, -⟩, -, ⟨hb, hn, -⟩, -⟩ := genInit_ok hg
  have e : genScales env { exampleArgs with bn := 13 } = .ok (.vk 50 (0.5 * 1.7 ^ 2 * (180 : ℝ) ^ (-2 / 3 : ℝ)), 50, 3) := by
    unfold genScales
    rw [if_neg (by decide), if_neg (by decide)]
    simp only [exampleArgs, heightPower_pos (show (0 : ℝ) < 180 by norm_num), if_true]
  rw [e] at hs
  simp only [Except.ok.injEq, Prod.mk.injEq] at hs
  have hn2 : g.nb = 59 := by
    rw [hn, ← hs.2.1, ← hs.2.2, Int.ceil_eq_iff]
    norm_num [exampleArgs]
  have hN : g.Nx = 65 := by
    unfold Gen.Nx
    rw [l1]
    rfl
  have hbn : g.bn = 13 := hb
  unfold Gen.shape1
  rw [hn2, hN, hbn]
  rfl

end
end Verif
