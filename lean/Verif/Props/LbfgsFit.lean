import Verif.Props.Lbfgs
import Verif.Props.LossLog

/-!
# C118: fits with the default optimiser
-/

namespace Verif
open Fl

noncomputable section

theorem ofFn_vecOf {N : ℕ} {l : List ℝ} (h : l.length = N) : List.ofFn (vecOf N l) = l := by
  subst h
  refine List.ext_getElem (by simp) fun i h1 h2 => ?_
  simp [vecOf, h2]

/-- Loss and gradient are finite numbers at every parameter vector of the right length. -/
def Spec.FiniteFit (cfg : TrainCfg) (D : GradRule) (st : TrainState) : Prop :=
  ∀ θ : List ℝ, θ.length = (st.ops.paramVec cfg.prob.learnNu).length →
    (∃ l : ℝ, (closure cfg θ st).1 = .ok (fin l)) ∧ (backward cfg D st.ops θ).length = θ.length ∧
      ∀ g ∈ backward cfg D st.ops θ, g.IsFin

/-- The objective of a fit started in state `st`: the loss the closure computes. -/
def Spec.lossAt (cfg : TrainCfg) (st : TrainState) (θ : List ℝ) : ℝ :=
  match (closure cfg θ st).1 with
  | .ok v => v.toReal
  | .error _ => 0

theorem runEpoch_left {cfg : TrainCfg} {e : ℕ} {o : OptStep} {st u : TrainState} {b : Bool}
    (h : runEpoch cfg e o st = (.ok b, u)) :
    ∃ st1, closures cfg o.queries st = (.ok (), st1) ∧ u.ops = st1.ops.setVec cfg.prob.learnNu o.final ∧ u.loss = st1.loss ∧
      u.eCount = st1.eCount ∧ u.epochLoss = st1.epochLoss ++ [st1.loss] := by
  unfold runEpoch at h
  rcases hc : closures cfg o.queries st with ⟨er | w, st1⟩
  · rw [hc] at h; simp at h
  refine ⟨st1, rfl, ?_⟩
  rw [hc] at h
  simp only at h
  split_ifs at h
  all_goals try (simp only [Prod.mk.injEq, reduceCtorEq, false_and] at h)
  · rw [← h.2]; exact ⟨rfl, rfl, rfl, rfl⟩
  · split at h
    · simp at h
    · split at h <;> · simp only [Prod.mk.injEq] at h; rw [← h.2]; exact ⟨rfl, rfl, rfl, rfl⟩
  · rw [← h.2]; exact ⟨rfl, rfl, rfl, rfl⟩

/-- One epoch with the default optimiser. -/
theorem lb_epoch {cfg : TrainCfg} {D : GradRule} {base : ℝ} (hb : 0 ≤ base) {wolfe N e : ℕ} {mem mem' : Option (LbMem N)}
    {st0 st u : TrainState} {x : PVec N} {b : Bool} (hc : cfg.coh = none ∨ st0.ops.cohGrid ≠ none)
    (hN : (st0.ops.paramVec cfg.prob.learnNu).length = N) (hA : ArchG cfg.prob.learnNu st.ops st0.ops)
    (hev : Spec.Reducing st.lrEvents) (he : e < cfg.prob.nepochs)
    (hx : (lbEpoch cfg D base wolfe (e + 1) N mem st).result = some (x, mem'))
    (h : runEpoch cfg (e + 1) ⟨(lbEpoch cfg D base wolfe (e + 1) N mem st).queries.map List.ofFn, List.ofFn x⟩ st = (.ok b, u)) :
    ArchG cfg.prob.learnNu u.ops st0.ops ∧ Spec.Reducing u.lrEvents ∧ u.ops.paramVec cfg.prob.learnNu = List.ofFn x ∧
    Spec.lossAt cfg st0 (List.ofFn x) ≤ Spec.lossAt cfg st0 (st.ops.paramVec cfg.prob.learnNu) ∧
    (∃ l, u.loss = fin l ∧ Spec.lossAt cfg st0 (List.ofFn x) ≤ l ∧ (b = true ↔ l < cfg.prob.tol)) ∧
    u.epochLoss = st.epochLoss ++ [u.loss] ∧
    st.eCount + 1 ≤ u.eCount ∧ u.eCount ≤ st.eCount + (max 1 (wolfe * 5 / 4 - 1) + 26) := by
  have hN' : (st.ops.paramVec cfg.prob.learnNu).length = N := by rw [hA.arch.length, hN]
  have hc' : cfg.coh = none ∨ st.ops.cohGrid ≠ none := by rw [hA.coh]; exact hc
  have hF : ∀ v : PVec N, (fitOracle cfg D st N v).1 = Spec.lossAt cfg st0 (List.ofFn v) := by
    intro v
    unfold fitOracle Spec.lossAt
    simp only
    rw [closure_congr rfl hA hc (by rw [List.length_ofFn, hN])]
    rcases (closure cfg (List.ofFn v) st0).1 with _ | _ <;> rfl
  obtain ⟨s1, s2, s3⟩ := C118_step (fitOracle cfg D st N) wolfe cfg.prob.nepochs
    (lr := rateAfter base cfg.prob.nepochs st.lrEvents (e + 1 - 1)) (rate_le hb (by omega) hev).1 mem
    (vecOf N (st.ops.paramVec cfg.prob.learnNu))
  obtain ⟨m1, z, m2, m3⟩ := s3 x mem' hx
  change (lbEpoch cfg D base wolfe (e + 1) N mem st).queries.length ≤ _ at s1
  change (lbEpoch cfg D base wolfe (e + 1) N mem st).queries.head? = _ at s2
  change (lbEpoch cfg D base wolfe (e + 1) N mem st).queries.getLast? = _ at m2
  set qs := (lbEpoch cfg D base wolfe (e + 1) N mem st).queries with hqs
  rw [hF, hF, ofFn_vecOf hN'] at m1
  rw [hF, hF] at m3
  obtain ⟨st1, c1, c2, c3, c4, c5⟩ := runEpoch_left h
  have hlen : ∀ θ ∈ qs.map List.ofFn, θ.length = (st.ops.paramVec cfg.prob.learnNu).length := by
    intro θ hθ
    obtain ⟨v, -, rfl⟩ := List.mem_map.1 hθ
    rw [List.length_ofFn, hN']
  have hAu : ArchG cfg.prob.learnNu u.ops st.ops := by
    have := archG_epoch (cfg := cfg) rfl (e + 1) (o := ⟨qs.map List.ofFn, List.ofFn x⟩) hc' ⟨by rw [List.length_ofFn, hN'], hlen⟩
    rw [h] at this
    exact this
  have hA1 : ArchG cfg.prob.learnNu st1.ops st.ops := by
    have := archG_closures (cfg := cfg) rfl (qs.map List.ofFn) hc' hlen
    rw [c1] at this
    exact this
  have hg := closures_ghost cfg (qs.map List.ofFn) st
  rw [c1] at hg
  have hgh := (runEpoch_ghost cfg (e + 1) ⟨qs.map List.ofFn, List.ofFn x⟩ st).2
  rw [h] at hgh
  obtain ⟨ini, hini⟩ : ∃ ini, qs = ini ++ [z] := by
    rcases List.eq_nil_or_concat qs with hnil | ⟨ini, w, hw⟩
    · rw [hnil] at m2; simp at m2
    · rw [List.concat_eq_append] at hw
      rw [hw] at m2
      have : w = z := by simpa using m2
      exact ⟨ini, by rw [hw, this]⟩
  have hlast : (closure cfg (List.ofFn z) st).1 = .ok u.loss := by
    rw [c3]
    refine C103_recorded_loss cfg hc' (ini.map List.ofFn) (List.ofFn z) ?_ ?_
    · intro y hy
      refine hlen y ?_
      rw [hini]; simpa using hy
    · rw [hini] at c1
      simpa using c1
  obtain ⟨-, l, hl, hlb⟩ := runEpoch_ok h
  have hJl : Spec.lossAt cfg st0 (List.ofFn z) = l := by
    unfold Spec.lossAt
    rw [← closure_congr rfl hA hc (by rw [List.length_ofFn, hN]), hlast, hl]
    rfl
  obtain ⟨as, a1, a2, -⟩ := closures_run c1
  have hlenq : as.length = qs.length := by rw [a1]; simp
  have hpos : 1 ≤ qs.length := by rw [hini]; simp
  refine ⟨hAu.trans hA, ?_, ?_, m1, ⟨l, hl, hJl ▸ m3, hlb⟩, ?_, ?_, ?_⟩
  · rcases hgh with t | ⟨f, hf, -, t⟩
    · rw [t]; exact hev
    · rw [t]
      intro q hq
      rcases List.mem_append.1 hq with h' | h'
      · exact hev q h'
      · rw [List.mem_singleton.1 h']
        rcases hf with rfl | rfl | rfl <;> norm_num
  · rw [c2, paramVec_setVec]
    rw [List.length_ofFn, hA1.arch.length, hN']
  · rw [c5, c3, hg.1]
  · rw [c4, a2, hlenq]; omega
  · rw [c4, a2, hlenq]; omega

/-- **C118** Any stretch of epochs with the default optimiser that is completed without an exception ends at parameters whose objective is
at most that of the parameters at its beginning. -/
theorem C118_epochs {cfg : TrainCfg} {D : GradRule} {base : ℝ} (hb : 0 ≤ base) {wolfe N : ℕ} {st0 : TrainState}
    (hc : cfg.coh = none ∨ st0.ops.cohGrid ≠ none) (hN : (st0.ops.paramVec cfg.prob.learnNu).length = N) (m e : ℕ)
    (mem : Option (LbMem N)) {st r : TrainState} (hA : ArchG cfg.prob.learnNu st.ops st0.ops)
    (hev : Spec.Reducing st.lrEvents) (he : e + m ≤ cfg.prob.nepochs)
    (h : runEpochsL cfg D base wolfe N (e + 1) m mem st = (.ok (), r)) :
    ArchG cfg.prob.learnNu r.ops st0.ops ∧
    Spec.lossAt cfg st0 (r.ops.paramVec cfg.prob.learnNu) ≤ Spec.lossAt cfg st0 (st.ops.paramVec cfg.prob.learnNu) ∧
    (0 < m → ∃ l, r.loss = fin l ∧ Spec.lossAt cfg st0 (r.ops.paramVec cfg.prob.learnNu) ≤ l) ∧
    ∃ new, r.epochLoss = st.epochLoss ++ new ∧ new.length ≤ m ∧ (0 < m → new.getLast? = some r.loss) ∧
      (new.length < m → ∃ l, r.loss = fin l ∧ l < cfg.prob.tol) ∧
      st.eCount + new.length ≤ r.eCount ∧ r.eCount ≤ st.eCount + new.length * (max 1 (wolfe * 5 / 4 - 1) + 26) := by
  induction m generalizing e mem st with
  | zero =>
    simp only [runEpochsL, Prod.mk.injEq, true_and] at h
    subst h
    exact ⟨hA, le_rfl, fun h => absurd h (by omega), [], by simp⟩
  | succ m ih =>
    rw [runEpochsL] at h
    rcases hres : (lbEpoch cfg D base wolfe (e + 1) N mem st).result with _ | ⟨x, mem'⟩
    · rw [hres] at h
      simp only at h
      split at h <;> simp at h
    rw [hres] at h
    simp only at h
    rcases hre : runEpoch cfg (e + 1) ⟨(lbEpoch cfg D base wolfe (e + 1) N mem st).queries.map List.ofFn, List.ofFn x⟩ st with
      ⟨er | b, u⟩
    · rw [hre] at h; simp at h
    rw [hre] at h
    obtain ⟨k1, k2, k3, k4, ⟨l, k5, k6, k7⟩, k8, k9, k10⟩ := lb_epoch hb hc hN hA hev (by omega) hres hre
    cases b with
    | true =>
      simp only [Prod.mk.injEq, true_and] at h
      subst h
      rw [k3]
      refine ⟨k1, k4, fun _ => ⟨l, k5, k6⟩, [u.loss], k8, by simp, fun _ => by simp, fun _ => ⟨l, k5, k7.1 rfl⟩, by simpa using k9, by simpa using k10⟩
    | false =>
      simp only at h
      obtain ⟨i0, i1, i2, new, i3, i4, i5, i6, i7, i8⟩ := ih (e + 1) mem' k1 k2 (by omega) h
      rw [k3] at i1
      have hr : m = 0 → r = u := by
        rintro rfl
        simp only [runEpochsL, Prod.mk.injEq, true_and] at h
        exact h.symm
      refine ⟨i0, i1.trans k4, fun _ => ?_, u.loss :: new, by rw [i3, k8]; simp, by simp; omega, fun _ => ?_, fun hl => i6 (by simpa using hl), ?_, ?_⟩
      · rcases Nat.eq_zero_or_pos m with hm | hm
        · rw [hr hm, k3]; exact ⟨l, k5, k6⟩
        · exact i2 hm
      · rcases Nat.eq_zero_or_pos m with hm | hm
        · have : new = [] := List.length_eq_zero_iff.1 (by omega)
          rw [hr hm, this]; rfl
        · have := i5 hm
          rw [List.getLast?_cons, this]; rfl
      · simp only [List.length_cons]; omega
      · simp only [List.length_cons]
        calc r.eCount ≤ u.eCount + new.length * (max 1 (wolfe * 5 / 4 - 1) + 26) := i8
          _ ≤ _ := by rw [add_mul, one_mul]; omega

/-- **C118** A fit with the default optimiser never returns parameters that are worse than the initial ones: the objective (the loss
the closure computes, which is one function of the parameters throughout the fit, C103) at the returned parameters is at most that
at the initial parameters, and at most the loss the fit reports.  In particular a fit that stopped early because the reported
loss was below the tolerance has returned parameters whose objective is below the tolerance.  The number of evaluations is at
least the number of epochs and at most `max(1, ⌊5 wolfe_iter_count / 4⌋ - 1) + 26` times that number. -/
theorem C118_fit (cfg : TrainCfg) (D : GradRule) {base : ℝ} (hb : 0 ≤ base) (wolfe : ℕ) {s : OPS} {st0 st : TrainState}
    {p : Calibrated} (hs : calibrateStart cfg s = (.ok (), st0)) (hfin : Spec.FiniteFit cfg D st0)
    (h : calibrateL cfg D base wolfe s = (.ok p, st)) :
    p = calibratedParams cfg.prob.learnable (st.ops.paramVec cfg.prob.learnNu) ∧
    st.epochLoss.length ≤ cfg.prob.nepochs ∧
    (∃ J0 J1 : ℝ, (closure cfg (s.paramVec cfg.prob.learnNu) st0).1 = .ok (fin J0) ∧
      (closure cfg (st.ops.paramVec cfg.prob.learnNu) st0).1 = .ok (fin J1) ∧ J1 ≤ J0 ∧
      (0 < cfg.prob.nepochs → ∃ l, st.epochLoss.getLast? = some (fin l) ∧ J1 ≤ l) ∧
      (st.epochLoss.length < cfg.prob.nepochs → J1 < cfg.prob.tol)) ∧
    st.epochLoss.length ≤ st.eCount ∧ st.eCount ≤ st.epochLoss.length * (max 1 (wolfe * 5 / 4 - 1) + 26) := by
  have s1 := start_same hs
  unfold calibrateL at h
  rw [hs] at h
  simp only at h
  rcases hr : runEpochsL cfg D base wolfe (st0.ops.paramVec cfg.prob.learnNu).length 1 cfg.prob.nepochs none st0 with ⟨e | u, r⟩
  · rw [hr] at h; simp at h
  rw [hr] at h
  simp only [Prod.mk.injEq, Except.ok.injEq] at h
  obtain ⟨h1, rfl⟩ := h
  have hc : cfg.coh = none ∨ st0.ops.cohGrid ≠ none := (start_grid hs).imp_right fun h => by rw [h]; simp
  have hec : st0.eCount = 0 := by
    have := hs
    unfold calibrateStart at this
    simp only at this
    split at this
    · simp at this
    · split at this
      · simp at this
      · split at this
        · simp at this
        · simp only [Prod.mk.injEq, true_and] at this
          rw [← this]
  obtain ⟨i0, i1, i2, new, i3, i4, i5, i6, i7, i8⟩ := C118_epochs hb hc rfl cfg.prob.nepochs 0 none (.refl _ _)
    (by rw [s1.2.2.2]; intro q hq; simp at hq) (by omega) hr
  rw [s1.2.2.1, List.nil_append] at i3
  rw [hec, zero_add] at i7 i8
  rw [s1.2.1] at i1
  rw [i3]
  have hJ : ∀ θ : List ℝ, θ.length = (st0.ops.paramVec cfg.prob.learnNu).length →
      (closure cfg θ st0).1 = .ok (fin (Spec.lossAt cfg st0 θ)) := by
    intro θ hθ
    obtain ⟨l, hl⟩ := (hfin θ hθ).1
    unfold Spec.lossAt
    rw [hl]
    rfl
  refine ⟨h1.symm, i4, ⟨_, _, hJ _ (by rw [s1.2.1]), hJ _ i0.arch.length, i1, fun hn => ?_, fun hn => ?_⟩, i7, i8⟩
  · obtain ⟨l, k1, k2⟩ := i2 hn
    exact ⟨l, by rw [i5 hn, k1], k2⟩
  · obtain ⟨l, k1, k2⟩ := i6 hn
    obtain ⟨l', k3, k4⟩ := i2 (by omega)
    rw [k1] at k3
    have := fin_inj.1 k3
    linarith

/-! ### Training with the default optimiser is training -/

theorem epochsL_instance {cfg : TrainCfg} (D : GradRule) (base : ℝ) (wolfe : ℕ) {N : ℕ} (m e : ℕ) (mem : Option (LbMem N))
    (st : TrainState) {r : TrainState} (h : runEpochsL cfg D base wolfe N e m mem st = (.ok (), r)) :
    ∃ opt : ℕ → OptStep, (∀ e, (opt e).final.length = N ∧ ∀ θ ∈ (opt e).queries, θ.length = N) ∧
      runEpochs cfg opt e m st = (.ok (), r) := by
  induction m generalizing e mem st with
  | zero =>
    refine ⟨fun _ => ⟨[], List.replicate N 0⟩, by simp, ?_⟩
    simpa [runEpochsL, runEpochs] using h
  | succ m ih =>
    rw [runEpochsL] at h
    rcases hres : (lbEpoch cfg D base wolfe e N mem st).result with _ | ⟨x, mem'⟩
    · rw [hres] at h
      simp only at h
      split at h <;> simp at h
    rw [hres] at h
    simp only at h
    set o : OptStep := ⟨(lbEpoch cfg D base wolfe e N mem st).queries.map List.ofFn, List.ofFn x⟩ with ho
    have hl : o.final.length = N ∧ ∀ θ ∈ o.queries, θ.length = N := by
      refine ⟨by simp [ho], fun θ hθ => ?_⟩
      obtain ⟨v, -, rfl⟩ := List.mem_map.1 hθ
      simp
    rcases hre : runEpoch cfg e o st with ⟨er | b, u⟩
    · rw [hre] at h; simp at h
    rw [hre] at h
    cases b with
    | true =>
      refine ⟨fun _ => o, fun _ => hl, ?_⟩
      rw [runEpochs, hre]
      exact h
    | false =>
      obtain ⟨opt, h1, h2⟩ := ih (e + 1) mem' u h
      refine ⟨fun i => if i = e then o else opt i, fun i => ?_, ?_⟩
      · by_cases hi : i = e
        · simp only [hi, if_true]; exact hl
        · simp only [hi, if_false]; exact h1 i
      · rw [runEpochs]
        simp only [if_true, hre]
        rw [← h2]
        refine runEpochs_congr cfg m (e + 1) u fun i hi => ?_
        rw [if_neg (by omega)]

/-- **C118** A fit with the default optimiser that returns is an instance of a fit with an arbitrary optimiser, so that everything proved
about those that return applies to it. -/
theorem C118_instance (cfg : TrainCfg) (D : GradRule) (base : ℝ) (wolfe : ℕ) (s : OPS) {p : Calibrated} {st : TrainState}
    (h : calibrateL cfg D base wolfe s = (.ok p, st)) :
    ∃ opt : ℕ → OptStep, (∀ e, (opt e).final.length = (s.paramVec cfg.prob.learnNu).length ∧
      ∀ θ ∈ (opt e).queries, θ.length = (s.paramVec cfg.prob.learnNu).length) ∧ calibrate cfg opt s = (.ok p, st) := by
  unfold calibrateL at h
  rcases hs : calibrateStart cfg s with ⟨e | u, st0⟩
  · rw [hs] at h; simp at h
  rw [hs] at h
  simp only at h
  have hl : (st0.ops.paramVec cfg.prob.learnNu).length = (s.paramVec cfg.prob.learnNu).length := by rw [(start_same hs).2.1]
  rcases hr : runEpochsL cfg D base wolfe (st0.ops.paramVec cfg.prob.learnNu).length 1 cfg.prob.nepochs none st0 with ⟨e | u, r⟩
  · rw [hr] at h; simp at h
  rw [hr] at h
  obtain ⟨opt, h1, h2⟩ := epochsL_instance D base wolfe _ _ _ _ hr
  refine ⟨opt, hl ▸ h1, ?_⟩
  unfold calibrate
  rw [hs]
  simp only
  rw [h2]
  exact h

/-! ### Stationary points -/

theorem getD_small {l : List Fl} {c : ℝ} (hc : 0 ≤ c) (h : ∀ g ∈ l, |g.toReal| ≤ c) (i : ℕ) : |(l.getD i (fin 0)).toReal| ≤ c := by
  rcases lt_or_ge i l.length with hi | hi
  · have : l.getD i (fin 0) = l[i] := by simp [List.getD_eq_getElem?_getD, hi]
    rw [this]
    exact h _ (List.getElem_mem hi)
  · have : l.getD i (fin 0) = fin 0 := by simp [List.getD_eq_getElem?_getD, hi]
    rw [this]
    simpa using hc

/-- At a point with a small gradient the optimiser makes one evaluation and does nothing. -/
theorem lbEpoch_stays {cfg : TrainCfg} {D : GradRule} {base : ℝ} {wolfe e N : ℕ} {mem : Option (LbMem N)} {st : TrainState}
    (hN : (st.ops.paramVec cfg.prob.learnNu).length = N)
    (hg : ∀ i < N, |((backward cfg D st.ops (st.ops.paramVec cfg.prob.learnNu)).getD i (fin 0)).toReal| ≤ 1e-7) :
    lbEpoch cfg D base wolfe e N mem st =
      ⟨[vecOf N (st.ops.paramVec cfg.prob.learnNu)], some (vecOf N (st.ops.paramVec cfg.prob.learnNu), mem)⟩ := by
  unfold lbEpoch lbStep
  rw [if_pos]
  rw [pi_norm_le_iff_of_nonneg (by norm_num)]
  intro i
  unfold fitOracle
  simp only
  rw [ofFn_vecOf hN]
  exact hg i i.2

theorem backward_same {cfg : TrainCfg} (D : GradRule) {st st0 : TrainState} (hc : cfg.coh = none ∨ st0.ops.cohGrid ≠ none)
    (hA : ArchG cfg.prob.learnNu st.ops st0.ops) {θ : List ℝ} (hθ : θ.length = (st0.ops.paramVec cfg.prob.learnNu).length) {l : ℝ}
    (h : (closure cfg θ st0).1 = .ok (fin l)) : backward cfg D st.ops θ = backward cfg D st0.ops θ := by
  rw [C104_coherence_silent cfg D st0 θ h, C104_coherence_silent cfg D st θ ((closure_congr rfl hA hc hθ).trans h),
    backward_congr cfg D hA.arch hA.grid hθ]

theorem lb_stays {cfg : TrainCfg} {D : GradRule} {base : ℝ} {wolfe N : ℕ} {st0 : TrainState}
    (hc : cfg.coh = none ∨ st0.ops.cohGrid ≠ none) (hN : (st0.ops.paramVec cfg.prob.learnNu).length = N) {l : ℝ}
    (hcl : (closure cfg (st0.ops.paramVec cfg.prob.learnNu) st0).1 = .ok (fin l))
    (hg : ∀ i < N, |((backward cfg D st0.ops (st0.ops.paramVec cfg.prob.learnNu)).getD i (fin 0)).toReal| ≤ 1e-7) (m e : ℕ)
    (mem : Option (LbMem N)) {st r : TrainState} (hA : ArchG cfg.prob.learnNu st.ops st0.ops)
    (hp : st.ops.paramVec cfg.prob.learnNu = st0.ops.paramVec cfg.prob.learnNu)
    (h : runEpochsL cfg D base wolfe N e m mem st = (.ok (), r)) :
    r.ops.paramVec cfg.prob.learnNu = st0.ops.paramVec cfg.prob.learnNu ∧
    ∃ k, r.epochLoss = st.epochLoss ++ List.replicate k (fin l) ∧ r.eCount = st.eCount + k := by
  induction m generalizing e mem st with
  | zero =>
    simp only [runEpochsL, Prod.mk.injEq, true_and] at h
    subst h
    exact ⟨hp, 0, by simp⟩
  | succ m ih =>
    set θ := st0.ops.paramVec cfg.prob.learnNu with hθ
    have hst := lbEpoch_stays (D := D) (base := base) (wolfe := wolfe) (e := e) (mem := mem) (by rw [hp, hN]) (by
      intro i hi
      rw [hp, backward_same D hc hA rfl hcl]
      exact hg i hi)
    rw [hp] at hst
    rw [runEpochsL, hst] at h
    simp only [List.map_cons, List.map_nil, ofFn_vecOf hN] at h
    have hc' : cfg.coh = none ∨ st.ops.cohGrid ≠ none := by rw [hA.coh]; exact hc
    have hlen : θ.length = (st.ops.paramVec cfg.prob.learnNu).length := by rw [hp]
    rcases hre : runEpoch cfg e ⟨[θ], θ⟩ st with ⟨er | b, u⟩
    · rw [hre] at h; simp at h
    rw [hre] at h
    have hAu := archG_epoch (cfg := cfg) rfl e (o := ⟨[θ], θ⟩) hc' ⟨hlen, fun x hx => by rw [List.mem_singleton.1 hx, hlen]⟩
    rw [hre] at hAu
    obtain ⟨st1, c1, c2, c3, c4, c5⟩ := runEpoch_left hre
    have hcl' : (closure cfg θ st).1 = .ok (fin l) := (closure_congr rfl hA hc rfl).trans hcl
    have h1 := C103_recorded_loss cfg hc' [] θ (by intro x hx; rw [List.mem_singleton.1 hx, hlen]) c1
    rw [hcl'] at h1
    have hl1 : st1.loss = fin l := (Except.ok.inj h1).symm
    have hg1 := closures_ghost cfg [θ] st
    rw [c1] at hg1
    obtain ⟨as, a1, a2, -⟩ := closures_run c1
    have ha : as.length = 1 := by rw [a1]; rfl
    have hA1 := archG_closures (cfg := cfg) rfl [θ] hc' fun x hx => by rw [List.mem_singleton.1 hx, hlen]
    rw [c1] at hA1
    have hpu : u.ops.paramVec cfg.prob.learnNu = θ := by
      rw [c2, paramVec_setVec]
      rw [hA1.arch.length]; exact hlen
    have hel : u.epochLoss = st.epochLoss ++ [fin l] := by rw [c5, hg1.1, hl1]
    have hec : u.eCount = st.eCount + 1 := by rw [c4, a2, ha]
    cases b with
    | true =>
      simp only [Prod.mk.injEq, true_and] at h
      subst h
      exact ⟨hpu, 1, hel, hec⟩
    | false =>
      simp only at h
      obtain ⟨i1, k, i2, i3⟩ := ih (e + 1) mem (hAu.trans hA) hpu h
      refine ⟨i1, k + 1, ?_, ?_⟩
      · rw [i2, hel, List.append_assoc]; rfl
      · rw [i3, hec]; omega

/-- **C118** If no component of the gradient at the initial parameters exceeds `1e-7`, a fit with the default optimiser that returns has
made one evaluation per epoch and returns exactly the initial parameters (Adam moves them, C109). -/
theorem C118_stationary (cfg : TrainCfg) (D : GradRule) (base : ℝ) (wolfe : ℕ) {s : OPS} {st0 st : TrainState} {p : Calibrated}
    (hs : calibrateStart cfg s = (.ok (), st0)) {l : ℝ} (hcl : (closure cfg (s.paramVec cfg.prob.learnNu) st0).1 = .ok (fin l))
    (hg : ∀ g ∈ backward cfg D st0.ops (s.paramVec cfg.prob.learnNu), |g.toReal| ≤ 1e-7)
    (h : calibrateL cfg D base wolfe s = (.ok p, st)) :
    st.ops.paramVec cfg.prob.learnNu = s.paramVec cfg.prob.learnNu ∧
    (p.L, p.Gamma, p.sigma) = (Real.exp s.logL, Real.exp s.logT, Real.exp s.logM) ∧
    (∀ x ∈ st.epochLoss, x = fin l) ∧ st.eCount = st.epochLoss.length := by
  have s1 := start_same hs
  unfold calibrateL at h
  rw [hs] at h
  simp only at h
  rcases hr : runEpochsL cfg D base wolfe (st0.ops.paramVec cfg.prob.learnNu).length 1 cfg.prob.nepochs none st0 with ⟨e | u, r⟩
  · rw [hr] at h; simp at h
  rw [hr] at h
  simp only [Prod.mk.injEq, Except.ok.injEq] at h
  obtain ⟨h1, rfl⟩ := h
  have hc : cfg.coh = none ∨ st0.ops.cohGrid ≠ none := (start_grid hs).imp_right fun h => by rw [h]; simp
  obtain ⟨i1, k, i2, i3⟩ := lb_stays hc rfl (by rw [s1.2.1]; exact hcl) (by
    intro i _
    rw [s1.2.1]
    exact getD_small (by norm_num) hg i) _ _ _ (.refl _ _) rfl hr
  rw [s1.2.1] at i1
  rw [s1.2.2.1, List.nil_append] at i2
  rw [(calibrateStart_ghost hs).2.2, zero_add] at i3
  refine ⟨i1, ?_, ?_, by rw [i2, i3, List.length_replicate]⟩
  · rw [← h1, i1]; rfl
  · rw [i2]; exact fun x hx => List.eq_of_mem_replicate hx

/-- **C118** Data that the model has produced itself are left alone: if the loss at the initial parameters is below the tolerance and the
gradient there is zero, the fit makes one step and returns the initial parameters. -/
theorem C118_own_data (cfg : TrainCfg) (D : GradRule) (base : ℝ) (wolfe : ℕ) {s : OPS} {st0 : TrainState}
    (hs : calibrateStart cfg s = (.ok (), st0)) (hl : cfg.prob.learnable = true) (hn : 0 < cfg.prob.nepochs) {l : ℝ}
    (hcl : (closure cfg (s.paramVec cfg.prob.learnNu) st0).1 = .ok (fin l)) (ht : l < cfg.prob.tol)
    (hg : ∀ g ∈ backward cfg D st0.ops (s.paramVec cfg.prob.learnNu), g = fin 0) :
    ∃ p st, calibrateL cfg D base wolfe s = (.ok p, st) ∧ st.epochLoss = [fin l] ∧
      (p.L, p.Gamma, p.sigma) = (Real.exp s.logL, Real.exp s.logT, Real.exp s.logM) := by
  obtain ⟨m, hm⟩ : ∃ m, cfg.prob.nepochs = m + 1 := ⟨cfg.prob.nepochs - 1, by omega⟩
  have s1 := start_same hs
  set θ := s.paramVec cfg.prob.learnNu with hθ
  have hθ' : st0.ops.paramVec cfg.prob.learnNu = θ := s1.2.1 _
  have hg' : ∀ g ∈ backward cfg D st0.ops (s.paramVec cfg.prob.learnNu), |g.toReal| ≤ 1e-7 := by
    intro g hgm
    rw [hg g hgm]
    norm_num
  have hst := lbEpoch_stays (cfg := cfg) (D := D) (base := base) (wolfe := wolfe) (e := 1) (mem := none) (st := st0) rfl (by
    intro i _
    rw [hθ']
    exact getD_small (by norm_num) hg' i)
  rcases hc : closure cfg θ st0 with ⟨err | l', st1⟩
  · rw [hc] at hcl; simp at hcl
  rw [hc] at hcl
  obtain rfl : l' = fin l := Except.ok.inj hcl
  have hloss := (closure_total hc).2.1
  have hgh := closure_ghost cfg θ st0
  rw [hc] at hgh
  have hep : runEpoch cfg 1 ⟨[θ], θ⟩ st0 = (.ok true, { st1 with ops := st1.ops.setVec cfg.prob.learnNu θ, epochLoss := [fin l] }) := by
    unfold runEpoch
    simp only [closures, hc]
    rw [if_neg (by simp [hl]), if_neg (by rw [hloss]; simp), if_pos (by rw [hloss]; exact ht), hloss, hgh.1, s1.2.2.1]
    rfl
  have hrun : calibrateL cfg D base wolfe s = (.ok (calibratedParams cfg.prob.learnable
      ((st1.ops.setVec cfg.prob.learnNu θ).paramVec cfg.prob.learnNu)),
      { st1 with ops := st1.ops.setVec cfg.prob.learnNu θ, epochLoss := [fin l] }) := by
    unfold calibrateL
    rw [hs]
    simp only
    rw [hm, runEpochsL, hst]
    have hep' : runEpoch cfg 1 ⟨[st0.ops.paramVec cfg.prob.learnNu], st0.ops.paramVec cfg.prob.learnNu⟩ st0 = _ := hθ' ▸ hep
    simp only [List.map_cons, List.map_nil]
    rw [ofFn_vecOf rfl, hep', hθ']
  exact ⟨_, _, hrun, rfl, (C118_stationary cfg D base wolfe hs (by rw [← hθ, hc]) hg' hrun).2.1⟩

/-- For every object with constant lifetime and learnable spectrum there is a fit to which `C118_fit`, `C118_stationary` and
`C118_own_data` apply. -/
example (s : OPS) (hk : s.kind = .const) {e q : ℝ} (_hsp : s.sp = .learnable e q)
    (hg : s.grid.Pairwise (· < ·)) (h2 : 2 ≤ s.grid.length) :
    ∃ (cfg : TrainCfg) (D : GradRule) (p : Calibrated) (st0 st : TrainState), calibrateStart cfg s = (.ok (), st0) ∧
      Spec.FiniteFit cfg D st0 ∧ calibrateL cfg D 0.1 20 s = (.ok p, st) ∧ 0 < cfg.prob.nepochs := by
  have hsound : ∀ o : OPS, o.kind = .const → o.params.LifetimeFinite := fun o h => by
    have : o.Sound := by unfold OPS.Sound; rw [h]; trivial
    exact this.finite
  let cfg : ℝ → TrainCfg := fun tol => ⟨⟨3, tol, 5, false, .const, false, true, 4, 17 / 6⟩, ⟨1, 1, 1, 1, 1, 1, 1⟩, ⟨0, 0, 0, 1⟩,
    (List.range 3).map fun j : ℕ => (j : ℝ) + 1, Spec.table 3 3 fun _ _ => fin 1, none⟩
  have hF : ∀ tol, Spec.FitSetting (cfg tol) 3 (fun j => (j : ℝ) + 1) fun _ _ => 1 := fun tol =>
    ⟨rfl, le_rfl, ⟨fun j _ => by positivity, fun j _ => by push_cast; linarith⟩, rfl, rfl, fun _ _ _ _ => one_ne_zero, one_ne_zero⟩
  let D : GradRule := ⟨fun _ θ => θ.map fun _ => fin 0, fun _ _ _ => rfl⟩
  obtain ⟨st0, hst, hgst⟩ := start_ok (cfg 0) (hF 0) s (hsound _ hk) hg h2 le_rfl le_rfl le_rfl
  have hst' : ∀ tol, calibrateStart (cfg tol) s = (.ok (), st0) := fun tol => hst
  have harch := arch_start false (cfg 0) s
  rw [hst] at harch
  have hkst : st0.ops.kind = .const := by
    have := harch.kind
    rw [hk] at this
    revert this
    cases st0.ops.kind <;> simp [KindShape]
  have hfin : ∀ tol, ∀ θ : List ℝ, ∃ l : ℝ, (closure (cfg tol) θ st0).1 = .ok (fin l) := by
    intro tol θ
    refine ⟨_, closure_objective (cfg tol) (hF tol) (a := 0) (b := 0) (r := fun _ => 0) (f := fun _ => 0) (D := fun _ _ _ => 0) st0
      (by rw [hgst]; exact hg) (by rw [hgst]; exact h2) (Or.inl rfl) θ (hsound _ ?_) fun h => absurd h (lt_irrefl _)⟩
    simp only [OPS.setVec]
    rw [hkst]
  obtain ⟨l, hl⟩ := hfin 0 (s.paramVec false)
  have hcl : (closure (cfg (l + 1)) (s.paramVec (cfg (l + 1)).prob.learnNu) st0).1 = .ok (fin l) := hl
  obtain ⟨p, st, h1, -, -⟩ := C118_own_data (cfg (l + 1)) D 0.1 20 (hst' _) rfl (Nat.succ_pos 4) hcl (by simp [cfg]) (by
    intro g hgm
    obtain ⟨x, -, rfl⟩ := List.mem_map.1 hgm
    rfl)
  refine ⟨cfg (l + 1), D, p, st0, st, hst' _, fun θ _ => ⟨hfin _ θ, ?_, ?_⟩, h1, Nat.succ_pos 4⟩
  · simp [backward, D]
  · intro g hgm
    obtain ⟨x, -, rfl⟩ := List.mem_map.1 hgm
    trivial

end
end Verif
