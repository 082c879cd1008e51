import Verif.Model.Reseed
import Verif.Props.GeneratorNoise

/-!
# Reseeding a generator: C129
-/

namespace Verif
open Fl

noncomputable section
open Classical

/-! ### Objects that differ in their random stream only -/

/-- The object with another stream and position. -/
def Gen.reading (g : Gen) (γ : ℕ → ℝ) (p : ℕ) : Gen := { g with gauss := γ, pos := p }

/-- The step `f` consumes a number of values, and its outcome with another stream that provides the same values is the same. -/
def Blind {β : Type} (f : Gen → β × Gen) : Prop :=
  ∀ g : Gen, ∃ d, (f g).2.pos = g.pos + d ∧ (f g).2.gauss = g.gauss ∧
    ∀ (γ : ℕ → ℝ) (p : ℕ), (∀ n < d, γ (p + n) = g.gauss (g.pos + n)) → f (g.reading γ p) = ((f g).1, (f g).2.reading γ (p + d))

theorem digits_lt {n1 n2 n3 a b c i : ℕ} (ha : a < n1) (hb : b < n2) (hc : c < n3) (hi : i < 3) :
    ((a * n2 + b) * n3 + c) * 3 + i < n1 * n2 * n3 * 3 := by
  have h1 : a * n2 + b < n1 * n2 := by nlinarith
  have h2 : (a * n2 + b) * n3 + c < n1 * n2 * n3 := by nlinarith
  omega

theorem sampleNoise_blind (n1 n2 n3 : ℕ) : Blind fun g => g.sampleNoise n1 n2 n3 := by
  intro g
  refine ⟨n1 * n2 * n3 * 3, rfl, rfl, fun γ p h => Prod.ext ?_ rfl⟩
  change Arr.ofFn _ _ _ _ = Arr.ofFn _ _ _ _
  refine ofFn_congr fun a ha b hb c hc => ?_
  funext i
  change γ (p + _) * _ = g.gauss (g.pos + _) * _
  rw [h _ (digits_lt ha hb hc i.isLt)]
  rfl

/-- What the next noise is when there is an old one, in terms of the new part drawn. -/
def Gen.rolled (g : Gen) (old : Arr ℝ) (fresh : Arr ℝ × Gen) : Except PyErr (Arr ℝ) × Gen :=
  let start := sliceIdx (old.planes.rotate g.Nx).length (2 * g.nb + max 0 (g.bn - 1))
  if (old.planes.rotate g.Nx).length - start ≠ g.Nx then (.error .valueError, fresh.2)
  else (.ok { old with planes := (old.planes.rotate g.Nx).take start ++ fresh.1.planes }, fresh.2)

theorem nextNoise_rolled {g : Gen} {old : Arr ℝ} (h : g.noise = some old) :
    g.nextNoise = g.rolled old (g.sampleNoise g.Nx g.shape2.toNat g.shape3.toNat) := by
  unfold Gen.nextNoise
  rw [h]
  rfl

theorem nextNoise_fresh {g : Gen} (h : g.noise = none) :
    g.nextNoise = (.ok (g.sampleNoise g.shape1.toNat g.shape2.toNat g.shape3.toNat).1,
      (g.sampleNoise g.shape1.toNat g.shape2.toNat g.shape3.toNat).2) := by
  unfold Gen.nextNoise
  rw [h]

theorem nextNoise_blind : Blind Gen.nextNoise := by
  intro g
  cases hn : g.noise with
  | none =>
    obtain ⟨d, h1, h2, h3⟩ := sampleNoise_blind g.shape1.toNat g.shape2.toNat g.shape3.toNat g
    rw [nextNoise_fresh hn]
    refine ⟨d, h1, h2, fun γ p h => ?_⟩
    have hn' : (g.reading γ p).noise = none := hn
    rw [nextNoise_fresh hn']
    have h3' : (g.reading γ p).sampleNoise (g.reading γ p).shape1.toNat (g.reading γ p).shape2.toNat (g.reading γ p).shape3.toNat =
      ((g.sampleNoise g.shape1.toNat g.shape2.toNat g.shape3.toNat).1,
        (g.sampleNoise g.shape1.toNat g.shape2.toNat g.shape3.toNat).2.reading γ (p + d)) := h3 γ p h
    rw [h3']
  | some old =>
    obtain ⟨d, h1, h2, h3⟩ := sampleNoise_blind g.Nx g.shape2.toNat g.shape3.toNat g
    rw [nextNoise_rolled hn]
    obtain ⟨x, hx⟩ : ∃ x, x = g.sampleNoise g.Nx g.shape2.toNat g.shape3.toNat := ⟨_, rfl⟩
    have h1' : x.2.pos = g.pos + d := by rw [hx]; exact h1
    have h2' : x.2.gauss = g.gauss := by rw [hx]; exact h2
    rw [← hx]
    have key : ∀ γ p, (∀ n < d, γ (p + n) = g.gauss (g.pos + n)) →
        (g.reading γ p).nextNoise = g.rolled old (x.1, x.2.reading γ (p + d)) := by
      intro γ p h
      have hn' : (g.reading γ p).noise = some old := hn
      rw [nextNoise_rolled hn', hx]
      have h3' : (g.reading γ p).sampleNoise (g.reading γ p).Nx (g.reading γ p).shape2.toNat (g.reading γ p).shape3.toNat =
        ((g.sampleNoise g.Nx g.shape2.toNat g.shape3.toNat).1, (g.sampleNoise g.Nx g.shape2.toNat g.shape3.toNat).2.reading γ (p + d)) :=
        h3 γ p h
      rw [h3']
      rfl
    refine ⟨d, ?_, ?_, fun γ p h => ?_⟩
    · unfold Gen.rolled
      simp only
      split_ifs <;> exact h1'
    · unfold Gen.rolled
      simp only
      split_ifs <;> exact h2'
    · rw [key γ p h]
      unfold Gen.rolled
      simp only
      split_ifs <;> rfl

theorem generateBlock_blind : Blind Gen.generateBlock := by
  intro g
  obtain ⟨d, h1, h2, h3⟩ := nextNoise_blind g
  unfold Gen.generateBlock
  rcases hx : g.nextNoise with ⟨r, g'⟩
  rw [hx] at h1 h2 h3
  cases r with
  | error e => exact ⟨d, h1, h2, fun γ p h => by rw [h3 γ p h]⟩
  | ok noise => exact ⟨d, h1, h2, fun γ p h => by rw [h3 γ p h]; rfl⟩

theorem blockStep_blind (p : ProfileArgs) (i : ℕ) : Blind (Gen.blockStep p i) := by
  intro g
  obtain ⟨d, h1, h2, h3⟩ := generateBlock_blind g
  unfold Gen.blockStep
  rcases hx : g.generateBlock with ⟨r, g'⟩
  rw [hx] at h1 h2 h3
  cases r with
  | error e => exact ⟨d, h1, h2, fun γ q h => by rw [h3 γ q h]⟩
  | ok b =>
    simp only
    cases hn : g'.normalizeBlock b p with
    | error e =>
      refine ⟨d, h1, h2, fun γ q h => ?_⟩
      rw [h3 γ q h]
      simp only
      rw [show (g'.reading γ (q + d)).normalizeBlock b p = .error e from hn]
    | ok b2 =>
      simp only
      cases ha : g'.addLow i b2 with
      | error e =>
        refine ⟨d, h1, h2, fun γ q h => ?_⟩
        rw [h3 γ q h]
        simp only
        rw [show (g'.reading γ (q + d)).normalizeBlock b p = .ok b2 from hn]
        simp only
        rw [show (g'.reading γ (q + d)).addLow i b2 = .error e from ha]
      | ok b3 =>
        simp only
        by_cases hc : g'.total.n2 ≠ b3.n2 ∨ g'.total.n3 ≠ b3.n3
        · rw [if_pos hc]
          refine ⟨d, h1, h2, fun γ q h => ?_⟩
          rw [h3 γ q h]
          simp only
          rw [show (g'.reading γ (q + d)).normalizeBlock b p = .ok b2 from hn]
          simp only
          rw [show (g'.reading γ (q + d)).addLow i b2 = .ok b3 from ha]
          exact if_pos hc
        · rw [if_neg hc]
          refine ⟨d, h1, h2, fun γ q h => ?_⟩
          rw [h3 γ q h]
          simp only
          rw [show (g'.reading γ (q + d)).normalizeBlock b p = .ok b2 from hn]
          simp only
          rw [show (g'.reading γ (q + d)).addLow i b2 = .ok b3 from ha]
          exact if_neg hc

theorem loop_blind (p : ProfileArgs) (n : ℕ) : ∀ i, Blind (Gen.loop p n i) := by
  induction n with
  | zero => exact fun i g => ⟨0, rfl, rfl, fun _ _ _ => rfl⟩
  | succ n ih =>
    intro i g
    obtain ⟨d, h1, h2, h3⟩ := blockStep_blind p i g
    unfold Gen.loop
    rcases hx : g.blockStep p i with ⟨r, g'⟩
    rw [hx] at h1 h2 h3
    cases r with
    | error e => exact ⟨d, h1, h2, fun γ q h => by rw [h3 γ q h]⟩
    | ok u =>
      simp only at h1 h2 h3 ⊢
      obtain ⟨d', k1, k2, k3⟩ := ih (i + 1) g'
      refine ⟨d + d', by rw [k1, h1, add_assoc], by rw [k2, h2], fun γ q h => ?_⟩
      rw [h3 γ q fun n hn => h n (by omega)]
      simp only
      rw [k3 γ (q + d) fun n hn => by rw [h1, h2, add_assoc, h _ (by omega), add_assoc], add_assoc]

theorem generate_blind (p : ProfileArgs) (n : ℕ) : Blind (Gen.generate p n) := by
  intro g
  obtain ⟨d, h1, h2, h3⟩ := loop_blind p n 0 g
  unfold Gen.generate
  rcases hx : Gen.loop p n 0 g with ⟨r, g'⟩
  rw [hx] at h1 h2 h3
  cases r with
  | error e => exact ⟨d, h1, h2, fun γ q h => by rw [h3 γ q h]⟩
  | ok u => exact ⟨d, h1, h2, fun γ q h => by rw [h3 γ q h]; rfl⟩

theorem run_blind (cs : List (ℕ × ProfileArgs)) : Blind (Gen.run cs) := by
  induction cs with
  | nil => exact fun g => ⟨0, rfl, rfl, fun _ _ _ => rfl⟩
  | cons c cs ih =>
    obtain ⟨n, p⟩ := c
    intro g
    obtain ⟨d, h1, h2, h3⟩ := generate_blind p n g
    obtain ⟨d', k1, k2, k3⟩ := ih (g.generate p n).2
    unfold Gen.run
    refine ⟨d + d', by simp only; rw [k1, h1, add_assoc], by simp only; rw [k2, h2], fun γ q h => ?_⟩
    simp only
    rw [h3 γ q fun n hn => h n (by omega)]
    simp only
    rw [k3 γ (q + d) fun n hn => by rw [h1, h2, add_assoc, h _ (by omega), add_assoc], add_assoc]

/-! ### C129 -/

/-- The first `n` values of one stream followed by another stream. -/
def Spec.splice (γ : ℕ → ℝ) (n : ℕ) (ξ : ℕ → ℝ) (m : ℕ) : ℝ := if m < n then γ m else ξ (m - n)

/-- The calls of a program. -/
def Spec.calls : List GenCmd → List (ℕ × ProfileArgs)
  | [] => []
  | .call n p :: cs => (n, p) :: Spec.calls cs
  | .reseed _ _ :: cs => Spec.calls cs

/-- The random values a program uses, in the order of their use: those drawn before a reseeding, followed by those of the new
stream. -/
def Spec.used (env : GenEnv) : List GenCmd → Gen → ℕ → ℝ
  | [], g => fun n => g.gauss (g.pos + n)
  | .call n p :: cs, g => Spec.splice (fun m => g.gauss (g.pos + m)) ((g.generate p n).2.pos - g.pos) (Spec.used env cs (g.generate p n).2)
  | .reseed seed entropy :: cs, g => Spec.used env cs (g.reseed env entropy seed)

theorem splice_lt {γ ξ : ℕ → ℝ} {n m : ℕ} (h : m < n) : Spec.splice γ n ξ m = γ m := if_pos h
theorem splice_ge (γ ξ : ℕ → ℝ) (n m : ℕ) : Spec.splice γ n ξ (n + m) = ξ m := by
  unfold Spec.splice
  rw [if_neg (by omega), Nat.add_sub_cancel_left]

theorem exec_reading (env : GenEnv) (cs : List GenCmd) : ∀ (g : Gen) (γ : ℕ → ℝ) (p : ℕ), (∀ n, γ (p + n) = Spec.used env cs g n) →
    (Gen.exec env cs g).1 = ((g.reading γ p).run (Spec.calls cs)).1 ∧
      ∃ δ d, (Gen.exec env cs g).2 = ((g.reading γ p).run (Spec.calls cs)).2.reading δ d := by
  induction cs with
  | nil => exact fun g γ p _ => ⟨rfl, g.gauss, g.pos, rfl⟩
  | cons c cs ih =>
    cases c with
    | call n q =>
      intro g γ p h
      obtain ⟨d, h1, h2, h3⟩ := generate_blind q n g
      have hd : (g.generate q n).2.pos - g.pos = d := by omega
      have hu : ∀ m, γ (p + m) = Spec.splice (fun m => g.gauss (g.pos + m)) d (Spec.used env cs (g.generate q n).2) m := fun m => by
        rw [h, ← hd]; rfl
      have h3 := h3 γ p fun m hm => by rw [hu, splice_lt hm]
      obtain ⟨k1, k2⟩ := ih (g.generate q n).2 γ (p + d) fun m => by rw [add_assoc, hu, splice_ge]
      unfold Gen.exec Spec.calls Gen.run
      simp only
      rw [h3]
      exact ⟨by rw [k1], k2⟩
    | reseed seed entropy =>
      intro g γ p h
      exact ih (g.reseed env entropy seed) γ p h

/-- **C129** (splice).  A program of calls and reseedings returns what the calls alone return from an object whose stream is the
sequence of values used, and leaves the same noise and the same field. -/
theorem C129_splice (env : GenEnv) (cs : List GenCmd) (g : Gen) :
    (Gen.exec env cs g).1 = ((g.reading (Spec.used env cs g) 0).run (Spec.calls cs)).1 ∧
    (Gen.exec env cs g).2.total = ((g.reading (Spec.used env cs g) 0).run (Spec.calls cs)).2.total ∧
    (Gen.exec env cs g).2.noise = ((g.reading (Spec.used env cs g) 0).run (Spec.calls cs)).2.noise := by
  obtain ⟨h1, δ, d, h2⟩ := exec_reading env cs g (Spec.used env cs g) 0 fun n => by rw [zero_add]
  exact ⟨h1, by rw [h2]; rfl, by rw [h2]; rfl⟩

/-- **C129** (before the first block).  A newly built object that is reseeded is the object built with the new seed, also after
calls that asked for no block. -/
theorem C129_fresh {env : GenEnv} {a : GenArgs} {g : Gen} {q : ℕ} (h : genInit env a = (.ok g, q)) (cs : List (ℕ × ProfileArgs))
    (h0 : ∀ c ∈ cs, c.1 = 0) (s : ℕ) (entropy : ℕ → ℝ) :
    genInit env { a with seed := some s } = (.ok ((g.run cs).2.reseed env entropy (some s)), q) ∧
    genInit { env with entropy } { a with seed := none } = (.ok ((g.run cs).2.reseed env entropy none), q) := by
  have hrun : (g.run cs).2 = g := by
    induction cs with
    | nil => rfl
    | cons c cs ih =>
      obtain ⟨n, p⟩ := c
      obtain rfl : n = 0 := h0 (n, p) List.mem_cons_self
      unfold Gen.run
      exact ih fun c hc => h0 c (List.mem_cons_of_mem _ hc)
  rw [hrun]
  obtain ⟨-, -, -, -, ⟨-, hpos, -⟩, -⟩ := genInit_ok h
  have e := genInit_stream h
  have key : ∀ γ : ℕ → ℝ, genInit (env.withStream γ) a = (.ok { g with gauss := γ, pos := 0 }, q) := by
    intro γ
    rw [e γ, Gen.withStream, ← hpos]
  constructor
  · rw [show Gen.reseed env entropy (some s) g = { g with gauss := env.seeded s, pos := 0 } from rfl, ← key]
    obtain ⟨_, _, _, _, _, _, _, _, _, _, _, _, _, seed, _, _⟩ := a
    cases seed <;> rfl
  · rw [show Gen.reseed env entropy none g = { g with gauss := entropy, pos := 0 } from rfl, ← key]
    obtain ⟨_, _, _, _, _, _, _, _, _, _, _, _, _, seed, _, _⟩ := a
    cases seed <;> rfl

/-! ### Reseeding after blocks have been drawn -/

/-- Number of values drawn for `j + 1` blocks. -/
def Gen.drawn (g : Gen) (j : ℕ) : ℕ := (g.shape1.toNat + j * g.Nx) * g.shape2.toNat * g.shape3.toNat * 3

/-- The object with the old values followed by the new stream. -/
def Gen.spliced (g : Gen) (j : ℕ) (ξ : ℕ → ℝ) : Gen := g.withStream (Spec.splice g.gauss (g.drawn j) ξ)

theorem noisePlane_old (g : Gen) (j : ℕ) (ξ : ℕ → ℝ) {r : ℕ} (hr : r < g.shape1.toNat + j * g.Nx) :
    (g.spliced j ξ).noisePlane r = g.noisePlane r := by
  unfold Gen.noisePlane
  refine tab_congr fun b hb => tab_congr fun c hc => ?_
  funext i
  change Spec.splice g.gauss (g.drawn j) ξ _ * _ = _
  exact congrArg (· * g.rf.noiseStd) (splice_lt (γ := g.gauss) (ξ := ξ) (n := g.drawn j) (digits_lt hr hb hc i.isLt))

theorem noisePlane_new (g : Gen) (j : ℕ) (ξ : ℕ → ℝ) (r : ℕ) :
    (g.spliced j ξ).noisePlane (g.shape1.toNat + j * g.Nx + r) = (g.withStream ξ).noisePlane r := by
  unfold Gen.noisePlane
  refine tab_congr fun b _ => tab_congr fun c _ => ?_
  funext i
  change Spec.splice g.gauss (g.drawn j) ξ _ * g.rf.noiseStd = ξ _ * g.rf.noiseStd
  have e : (((g.shape1.toNat + j * g.Nx + r) * g.shape2.toNat + b) * g.shape3.toNat + c) * 3 + i.val =
      g.drawn j + (((r * g.shape2.toNat + b) * g.shape3.toNat + c) * 3 + i.val) := by
    unfold Gen.drawn; ring
  have e' := splice_ge g.gauss ξ (g.drawn j) (((r * g.shape2.toNat + b) * g.shape3.toNat + c) * 3 + i.val)
  rw [← e] at e'
  exact congrArg (· * g.rf.noiseStd) e'

theorem window_old (g : Gen) (j : ℕ) (ξ : ℕ → ℝ) : (g.spliced j ξ).window j = g.window j := by
  unfold Gen.window
  change Arr.mk g.shape2.toNat g.shape3.toNat (tab g.shape1.toNat fun a => (g.spliced j ξ).noisePlane (j * g.Nx + a)) = _
  congr 1
  exact tab_congr fun a ha => noisePlane_old g j ξ (by omega)

/-- The noise of block `i` after the reseeding, once all old planes have been rolled out: planes of the new stream only. -/
theorem window_new (g : Gen) (j : ℕ) (ξ : ℕ → ℝ) {i : ℕ} (hi : g.shape1.toNat ≤ (i + 1) * g.Nx) :
    (g.spliced j ξ).window (j + 1 + i) = ⟨g.shape2.toNat, g.shape3.toNat,
      tab g.shape1.toNat fun a => (g.withStream ξ).noisePlane ((i + 1) * g.Nx - g.shape1.toNat + a)⟩ := by
  unfold Gen.window
  change Arr.mk g.shape2.toNat g.shape3.toNat (tab g.shape1.toNat fun a => (g.spliced j ξ).noisePlane ((j + 1 + i) * g.Nx + a)) = _
  congr 1
  refine tab_congr fun a ha => ?_
  rw [← noisePlane_new g j ξ]
  congr 1
  have : (j + 1 + i) * g.Nx = j * g.Nx + (i + 1) * g.Nx := by ring
  omega

/-- The state after a reseeding, up to the stream. -/
theorem reseed_state (g : Gen) (j : ℕ) (tot : Arr Fl) (env : GenEnv) (entropy : ℕ → ℝ) (seed : Option ℕ) :
    (g.st (j + 1) tot).reseed env entropy seed =
      ((g.spliced j (seedStream env entropy seed)).st (j + 1) tot).reading (seedStream env entropy seed) 0 := by
  unfold Gen.reseed Gen.reading Gen.st
  simp only
  rw [window_old]
  have e : (g.spliced j (seedStream env entropy seed)).blendAfter j = g.blendAfter j := by
    unfold Gen.blendAfter
    rw [window_old]
    rfl
  rw [e]
  rfl

/-- Every further history of the reseeded object is that of the object with the spliced stream. -/
theorem reseed_run (g : Gen) (j : ℕ) (tot : Arr Fl) (env : GenEnv) (entropy : ℕ → ℝ) (seed : Option ℕ) (cs : List (ℕ × ProfileArgs)) :
    ∃ d, ((g.st (j + 1) tot).reseed env entropy seed).run cs =
      (((g.spliced j (seedStream env entropy seed)).st (j + 1) tot).run cs |>.1,
        (((g.spliced j (seedStream env entropy seed)).st (j + 1) tot).run cs).2.reading (seedStream env entropy seed) d) := by
  obtain ⟨d, -, -, h⟩ := run_blind cs ((g.spliced j (seedStream env entropy seed)).st (j + 1) tot)
  refine ⟨0 + d, ?_⟩
  rw [reseed_state]
  refine h _ 0 fun n _ => ?_
  rw [zero_add]
  exact (splice_ge g.gauss (seedStream env entropy seed) (g.drawn j) n).symm

theorem drawn_state {env : GenEnv} {a : GenArgs} {g : Gen} {q : ℕ} (ha : a.PosScales) (h : genInit env a = (.ok g, q))
    (cs : List (ℕ × ProfileArgs)) (hd : (g.run cs).2.noise ≠ none) :
    ∃ j k tot, (g.run cs).2 = g.st (j + 1) tot ∧ tot.Shape (k * g.Nx) g.Ny g.Nz := by
  obtain ⟨kernel, L, T, hs, hf, hl, -⟩ := genInit_ok h
  have hg := genInit_good ha h
  obtain ⟨j', k', tot', e, s, -⟩ := run_st hg hl cs 0 0 ⟨g.Ny, g.Nz, []⟩ ⟨rfl, rfl, by simp, fun p hp => by cases hp⟩
  rw [hf.st] at e
  cases j' with
  | zero => rw [e] at hd; exact absurd rfl hd
  | succ j => exact ⟨j, k', tot', e, s⟩

theorem spliced_good {g : Gen} (h : g.Good) (j : ℕ) (ξ : ℕ → ℝ) : (g.spliced j ξ).Good := h
theorem spliced_low {g : Gen} (h : g.LowReady) (j : ℕ) (ξ : ℕ → ℝ) : (g.spliced j ξ).LowReady := h

theorem run_one (g : Gen) (n : ℕ) (p : ProfileArgs) : g.run [(n, p)] = ([(g.generate p n).1], (g.generate p n).2) := rfl

theorem run_append (cs ds : List (ℕ × ProfileArgs)) : ∀ g : Gen, g.run (cs ++ ds) =
    ((g.run cs).1 ++ ((g.run cs).2.run ds).1, ((g.run cs).2.run ds).2) := by
  induction cs with
  | nil => intro g; rfl
  | cons c cs ih =>
    intro g
    obtain ⟨n, p⟩ := c
    simp only [List.cons_append, Gen.run, ih]

/-- **C129** (the buffer stays).  The first block drawn after a reseeding is correlated from a noise array that begins with all but
the first `Nx` planes of the old one, at least two: the seed alone does not determine it. -/
theorem C129_mixed {env : GenEnv} {a : GenArgs} {g : Gen} {q : ℕ} (ha : a.PosScales) (h : genInit env a = (.ok g, q))
    (cs : List (ℕ × ProfileArgs)) {old : Arr ℝ} (hd : (g.run cs).2.noise = some old) (env' : GenEnv) (entropy : ℕ → ℝ)
    (seed : Option ℕ) (p : ProfileArgs) :
    ∃ new, (((g.run cs).2.reseed env' entropy seed).generate p 1).2.noise = some new ∧
      new.planes.take (old.planes.length - g.Nx) = old.planes.drop g.Nx ∧ g.Nx + 2 ≤ old.planes.length := by
  have hg := genInit_good ha h
  obtain ⟨-, -, -, -, -, hl, -⟩ := genInit_ok h
  obtain ⟨j, k, tot, e, s⟩ := drawn_state ha h cs (by rw [hd]; simp)
  rw [e] at hd ⊢
  obtain rfl : g.window j = old := Option.some.inj hd
  obtain ⟨d, hrun⟩ := reseed_run g j tot env' entropy seed [(1, p)]
  obtain ⟨G, hG⟩ : ∃ G, G = g.spliced j (seedStream env' entropy seed) := ⟨_, rfl⟩
  have hgG : G.Good := by rw [hG]; exact spliced_good hg _ _
  have hlG : G.LowReady := by rw [hG]; exact spliced_low hl _ _
  rw [← hG, run_one, run_one] at hrun
  have h2 := congrArg (fun x : List (Except PyErr (Arr Fl)) × Gen => x.2.noise) hrun
  simp only at h2
  have h3 : ((G.st (j + 1) tot).generate p 1).2.noise = some (G.window (j + 1)) := by
    have ht : tot.n2 = G.Ny ∧ tot.n3 = G.Nz := by rw [hG]; exact ⟨s.1, s.2.1⟩
    rcases generate_st hgG hlG p 1 (j + 1) ht with ⟨-, h⟩ | ⟨m, hm, -, -, h⟩
    · rw [h]; rfl
    · obtain rfl : m = 0 := by omega
      rw [h]; rfl
  refine ⟨G.window (j + 1), h2.trans h3, ?_, ?_⟩
  · obtain ⟨o1, o2, -⟩ := C51_overlap hgG j
    have ew : G.window j = g.window j := by rw [hG]; exact window_old _ _ _
    rw [ew] at o1 o2
    have eN : G.Nx = g.Nx := by rw [hG]; rfl
    rw [eN] at o1
    rw [o2, o1]
  · rw [(C51_overlap hg j).2.1]
    exact (C51_overlap hg j).2.2

/-- What two objects with the same blocks to come append. -/
theorem appended_eq {g g' : Gen} {γ : ℕ → ℝ} (hg : g.Good) (hl : g.LowReady) (hs : g' = g.withStream γ) {j j' : ℕ} {tot tot' : Arr Fl}
    (ht : tot.n2 = g.Ny ∧ tot.n3 = g.Nz) (ht' : tot'.n2 = g.Ny ∧ tot'.n3 = g.Nz) (hb : ∀ t, g'.block (j' + t) = g.block (j + t))
    (p : ProfileArgs) (n : ℕ) :
    ((∃ f, ((g.st j tot).generate p n).1 = .ok f) ↔ ∃ f, ((g'.st j' tot').generate p n).1 = .ok f) ∧
    ∀ f f', ((g.st j tot).generate p n).1 = .ok f → ((g'.st j' tot').generate p n).1 = .ok f' →
      f.planes.drop tot.planes.length = f'.planes.drop tot'.planes.length := by
  have hg' : g'.Good := by rw [hs]; exact hg
  have hl' : g'.LowReady := by rw [hs]; exact hl
  have ht2 : tot'.n2 = g'.Ny ∧ tot'.n3 = g'.Nz := by rw [hs]; exact ht'
  have houts : g'.outs p 0 j' n = g.outs p 0 j n := by
    unfold Gen.outs
    have e : ∀ t, g'.outAt p (0 + t) (j' + t) = g.outAt p (0 + t) (j + t) := by
      intro t
      unfold Gen.outAt
      rw [hb t]
      rw [hs]
      rfl
    simp only [e]
    rw [hs]
    rfl
  rcases generate_st hg hl p n j ht with ⟨h1, h2⟩ | ⟨k, hk, h1, h1', h2⟩
  · rcases generate_st hg' hl' p n j' ht2 with ⟨h3, h4⟩ | ⟨k, hk, h3, h3', h4⟩
    · rw [h2, h4]
      refine ⟨⟨fun _ => ⟨_, rfl⟩, fun _ => ⟨_, rfl⟩⟩, fun f f' hf hf' => ?_⟩
      obtain rfl := Except.ok.inj hf
      obtain rfl := Except.ok.inj hf'
      simp only [Gen.ext, List.drop_left, houts]
    · rw [hb k] at h3'
      exact absurd (h1 k hk) h3'
  · rcases generate_st hg' hl' p n j' ht2 with ⟨h3, h4⟩ | ⟨k', hk', h3, h3', h4⟩
    · rw [← hb k] at h1'
      exact absurd (h3 k hk) h1'
    · rw [h2, h4]
      refine ⟨⟨?_, ?_⟩, ?_⟩
      · rintro ⟨f, hf⟩; cases hf
      · rintro ⟨f, hf⟩; cases hf
      · intro f f' hf; cases hf

/-- Blocks from the same noise are the same. -/
theorem block_of_window {g g' : Gen} {γ : ℕ → ℝ} (hs : g' = g.withStream γ) {j j' : ℕ} (h : g'.window j' = g.window j) :
    g'.block j' = g.block j := by
  unfold Gen.block
  rw [h, hs]
  rfl

/-- The reseeded object after successful calls. -/
theorem reseed_after {env : GenEnv} {a : GenArgs} {g : Gen} {q : ℕ} (ha : a.PosScales) (h : genInit env a = (.ok g, q))
    (cs : List (ℕ × ProfileArgs)) {old : Arr ℝ} (hd : (g.run cs).2.noise = some old) (env' : GenEnv) (entropy : ℕ → ℝ)
    (seed : Option ℕ) (ds : List (ℕ × ProfileArgs))
    (hok : ∀ r ∈ (((g.run cs).2.reseed env' entropy seed).run ds).1, ∃ f, r = .ok f) :
    old.planes.length = g.shape1.toNat ∧
    ∃ j tot, (tot.n2 = g.Ny ∧ tot.n3 = g.Nz) ∧ tot = (((g.run cs).2.reseed env' entropy seed).run ds).2.total ∧
      ∀ p n, ((((g.run cs).2.reseed env' entropy seed).run ds).2.generate p n).1 =
        (((g.spliced j (seedStream env' entropy seed)).st (j + 1 + (ds.map Prod.fst).sum) tot).generate p n).1 := by
  have hg := genInit_good ha h
  obtain ⟨-, -, -, -, -, hl, -⟩ := genInit_ok h
  obtain ⟨j, k, tot, e, s⟩ := drawn_state ha h cs (by rw [hd]; simp)
  rw [e] at hd hok ⊢
  obtain rfl : g.window j = old := Option.some.inj hd
  refine ⟨(C51_overlap hg j).2.1, ?_⟩
  obtain ⟨d, hrun⟩ := reseed_run g j tot env' entropy seed ds
  rw [hrun] at hok ⊢
  obtain ⟨j', k', tot', e', s', -, -, -, b⟩ := run_st (spliced_good hg j (seedStream env' entropy seed))
    (spliced_low hl j _) ds (j + 1) k tot s
  obtain rfl := (b hok).2
  refine ⟨j, tot', ⟨s'.1, s'.2.1⟩, ?_, fun p n => ?_⟩
  · simp only
    rw [e']
    rfl
  · have h2 := reseed_run g j tot env' entropy seed (ds ++ [(n, p)])
    obtain ⟨d2, h2⟩ := h2
    rw [run_append, run_append, hrun, e'] at h2
    have h3 := congrArg (fun x : List (Except PyErr (Arr Fl)) × Gen => x.1) h2
    simp only [run_one] at h3
    have h4 := List.append_cancel_left h3
    simp only
    rw [e']
    simpa using h4

/-- **C129** (memory).  Two objects built from the same arguments with different seeds and used differently, but both at least
once, are reseeded alike and then make the same calls.  When these have asked for as many blocks as the noise array has planes,
divided by `Nx`, minus one, the next call appends the same planes to both fields. -/
theorem C129_forget {env : GenEnv} {a : GenArgs} {γ1 γ2 : ℕ → ℝ} {g1 g2 : Gen} {q1 q2 : ℕ} (ha : a.PosScales)
    (h1 : genInit (env.withStream γ1) a = (.ok g1, q1)) (h2 : genInit (env.withStream γ2) a = (.ok g2, q2))
    (cs1 cs2 : List (ℕ × ProfileArgs)) {old1 old2 : Arr ℝ} (hd1 : (g1.run cs1).2.noise = some old1)
    (hd2 : (g2.run cs2).2.noise = some old2) (env' : GenEnv) (entropy : ℕ → ℝ) (seed : Option ℕ) (ds : List (ℕ × ProfileArgs))
    (hok1 : ∀ r ∈ (((g1.run cs1).2.reseed env' entropy seed).run ds).1, ∃ f, r = .ok f)
    (hok2 : ∀ r ∈ (((g2.run cs2).2.reseed env' entropy seed).run ds).1, ∃ f, r = .ok f)
    (hlong : old1.planes.length ≤ ((ds.map Prod.fst).sum + 1) * (2 ^ a.l1 + 1)) (p : ProfileArgs) (n : ℕ) :
    let s1 := (((g1.run cs1).2.reseed env' entropy seed).run ds).2
    let s2 := (((g2.run cs2).2.reseed env' entropy seed).run ds).2
    ((∃ f, (s1.generate p n).1 = .ok f) ↔ ∃ f, (s2.generate p n).1 = .ok f) ∧
    ∀ f1 f2, (s1.generate p n).1 = .ok f1 → (s2.generate p n).1 = .ok f2 →
      f1.planes.drop s1.total.planes.length = f2.planes.drop s2.total.planes.length := by
  have hg := genInit_good ha h1
  obtain ⟨-, -, -, -, -, hl, -, ⟨l1, -⟩, -⟩ := genInit_ok h1
  have hs : g2 = g1.withStream γ2 := by
    have := genInit_stream h1 γ2
    rw [show (env.withStream γ1).withStream γ2 = env.withStream γ2 from rfl, h2] at this
    exact Except.ok.inj (Prod.ext_iff.1 this).1
  obtain ⟨len, j1, tot1, t1, e1, k1⟩ := reseed_after ha h1 cs1 hd1 env' entropy seed ds hok1
  obtain ⟨-, j2, tot2, t2, e2, k2⟩ := reseed_after ha h2 cs2 hd2 env' entropy seed ds hok2
  intro s1 s2
  have e1' : s1.total = tot1 := e1.symm
  have e2' : s2.total = tot2 := e2.symm
  rw [e1', e2', k1 p n, k2 p n]
  have hNx : g1.Nx = 2 ^ a.l1 + 1 := by unfold Gen.Nx; rw [l1]
  rw [len, ← hNx] at hlong
  refine appended_eq (g := g1.spliced j1 (seedStream env' entropy seed)) (γ := Spec.splice g2.gauss (g2.drawn j2) (seedStream env' entropy seed))
    (spliced_good hg _ _) (spliced_low hl _ _) ?_ t1 ?_ (fun t => ?_) p n
  · rw [hs]; rfl
  · rw [hs] at t2; exact t2
  · refine block_of_window (γ := Spec.splice g2.gauss (g2.drawn j2) (seedStream env' entropy seed)) (by rw [hs]; rfl) ?_
    have hi : g1.shape1.toNat ≤ ((ds.map Prod.fst).sum + t + 1) * g1.Nx :=
      hlong.trans (Nat.mul_le_mul_right _ (by omega))
    rw [show j1 + 1 + (ds.map Prod.fst).sum + t = j1 + 1 + ((ds.map Prod.fst).sum + t) by ring,
      show j2 + 1 + (ds.map Prod.fst).sum + t = j2 + 1 + ((ds.map Prod.fst).sum + t) by ring, window_new g1 j1 _ hi]
    have hi2 : g2.shape1.toNat ≤ ((ds.map Prod.fst).sum + t + 1) * g2.Nx := by rw [hs]; exact hi
    rw [window_new g2 j2 _ hi2, hs]
    rfl

/-- **C129** (repetition).  If the number of planes of the noise array is `m * Nx`, then from block `m - 1` after the reseeding on
the object appends what a new object with that seed returns from its first block on: `ds` and `ds'` are histories of successful
calls, the first with `m - 1` blocks more. -/
theorem C129_repeat {env : GenEnv} {a : GenArgs} {γ : ℕ → ℝ} {g g0 : Gen} {q q0 : ℕ} (ha : a.PosScales)
    (h : genInit (env.withStream γ) a = (.ok g, q)) (cs : List (ℕ × ProfileArgs)) {old : Arr ℝ}
    (hd : (g.run cs).2.noise = some old) (env' : GenEnv) (entropy : ℕ → ℝ) (seed : Option ℕ)
    (h0 : genInit (env.withStream (seedStream env' entropy seed)) a = (.ok g0, q0)) {m : ℕ}
    (hm : old.planes.length = m * (2 ^ a.l1 + 1)) (ds ds' : List (ℕ × ProfileArgs))
    (hds : (ds.map Prod.fst).sum + 1 = m + (ds'.map Prod.fst).sum)
    (hok : ∀ r ∈ (((g.run cs).2.reseed env' entropy seed).run ds).1, ∃ f, r = .ok f)
    (hok' : ∀ r ∈ (g0.run ds').1, ∃ f, r = .ok f) (p : ProfileArgs) (n : ℕ) :
    let s1 := (((g.run cs).2.reseed env' entropy seed).run ds).2
    let s2 := (g0.run ds').2
    ((∃ f, (s1.generate p n).1 = .ok f) ↔ ∃ f, (s2.generate p n).1 = .ok f) ∧
    ∀ f1 f2, (s1.generate p n).1 = .ok f1 → (s2.generate p n).1 = .ok f2 →
      f1.planes.drop s1.total.planes.length = f2.planes.drop s2.total.planes.length := by
  have hg := genInit_good ha h
  obtain ⟨-, -, -, -, -, hl, -, ⟨l1, -⟩, -⟩ := genInit_ok h
  have hg0 := genInit_good ha h0
  obtain ⟨-, -, -, -, hf0, hl0, -⟩ := genInit_ok h0
  have hs : g0 = g.withStream (seedStream env' entropy seed) := by
    have := genInit_stream h (seedStream env' entropy seed)
    rw [show (env.withStream γ).withStream (seedStream env' entropy seed) = env.withStream (seedStream env' entropy seed) from rfl, h0] at this
    exact Except.ok.inj (Prod.ext_iff.1 this).1
  obtain ⟨len, j, tot, t1, e1, k1⟩ := reseed_after ha h cs hd env' entropy seed ds hok
  obtain ⟨j', k', tot', e', s', -, -, -, b⟩ := run_st hg0 hl0 ds' 0 0 ⟨g0.Ny, g0.Nz, []⟩ ⟨rfl, rfl, by simp, fun p hp => by cases hp⟩
  rw [hf0.st] at e' b
  obtain rfl := (b hok').2
  intro s1 s2
  have e1' : s1.total = tot := e1.symm
  have e2' : s2 = g0.st (0 + (ds'.map Prod.fst).sum) tot' := e'
  have e2t : (g0.st (0 + (ds'.map Prod.fst).sum) tot').total = tot' := rfl
  rw [e1', k1 p n, e2', e2t]
  have hNx : g.Nx = 2 ^ a.l1 + 1 := by unfold Gen.Nx; rw [l1]
  rw [len, ← hNx] at hm
  refine appended_eq (g := g.spliced j (seedStream env' entropy seed)) (γ := seedStream env' entropy seed)
    (spliced_good hg _ _) (spliced_low hl _ _) ?_ t1 ?_ (fun t => ?_) p n
  · rw [hs]; rfl
  · have := s'.1; have := s'.2.1; rw [hs] at *; exact ⟨by assumption, by assumption⟩
  · refine block_of_window (γ := seedStream env' entropy seed) (by rw [hs]; rfl) ?_
    have hmul : ((ds.map Prod.fst).sum + t + 1) * g.Nx = m * g.Nx + (0 + (ds'.map Prod.fst).sum + t) * g.Nx := by
      rw [← add_mul]; congr 1; omega
    rw [show j + 1 + (ds.map Prod.fst).sum + t = j + 1 + ((ds.map Prod.fst).sum + t) by ring,
      window_new g j _ (by rw [hmul, hm]; omega), hs]
    unfold Gen.window
    change Arr.mk g.shape2.toNat g.shape3.toNat _ = Arr.mk g.shape2.toNat g.shape3.toNat _
    congr 1
    refine tab_congr fun x _ => ?_
    rw [hmul, hm, Nat.add_sub_cancel_left]
    rfl

end
end Verif
