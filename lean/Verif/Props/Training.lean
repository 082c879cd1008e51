import Verif.Props.ParamVector
import Verif.Props.Data
import Verif.Props.LossControl

/-!
# C39, C45 - C47, C80: the training loop and its auxiliary functions
-/

namespace Verif
open Fl

noncomputable section

/-! ### C39 -/

/-- What one epoch can do, spelled out. -/
theorem runEpoch_ok {cfg : TrainCfg} {e : ℕ} {o : OptStep} {st st' : TrainState} {b : Bool}
    (h : runEpoch cfg e o st = (.ok b, st')) :
    cfg.prob.learnable = true ∧ (∃ x, st'.loss = fin x ∧ (b = true ↔ x < cfg.prob.tol)) := by
  unfold runEpoch at h
  split at h
  · simp at h
  rename_i st1 _
  simp only at h
  by_cases h1 : cfg.prob.learnable = true
  swap
  · rw [if_pos h1] at h; simp at h
  rw [if_neg (not_not.2 h1)] at h
  by_cases h2 : st1.loss.IsFin
  swap
  · rw [if_pos h2] at h; simp at h
  rw [if_neg (not_not.2 h2)] at h
  obtain ⟨x, hx⟩ := isFin_iff.1 h2
  by_cases h3 : Fl.lt st1.loss (fin cfg.prob.tol)
  · rw [if_pos h3] at h
    simp only [Prod.mk.injEq, Except.ok.injEq] at h
    rw [hx, lt_fin] at h3
    refine ⟨h1, x, by rw [← h.2]; exact hx, by simp [← h.1, h3]⟩
  · rw [if_neg h3] at h
    rw [hx, lt_fin] at h3
    have key : b = false ∧ st'.loss = st1.loss := by
      split_ifs at h
      · split at h
        · simp at h
        · split at h <;>
          · simp only [Prod.mk.injEq, Except.ok.injEq] at h
            exact ⟨h.1.symm, by rw [← h.2]⟩
      · simp only [Prod.mk.injEq, Except.ok.injEq] at h
        exact ⟨h.1.symm, by rw [← h.2]⟩
    refine ⟨h1, x, by rw [key.2]; exact hx, by simp [key.1]; linarith⟩

theorem closure_ghost (cfg : TrainCfg) (θ : List ℝ) (st : TrainState) :
    (closure cfg θ st).2.epochLoss = st.epochLoss ∧ (closure cfg θ st).2.lrEvents = st.lrEvents := by
  unfold closure
  simp only
  split
  · exact ⟨rfl, rfl⟩
  · split
    · exact ⟨rfl, rfl⟩
    · split <;> exact ⟨rfl, rfl⟩

theorem closures_ghost (cfg : TrainCfg) (θs : List (List ℝ)) (st : TrainState) :
    (closures cfg θs st).2.epochLoss = st.epochLoss ∧ (closures cfg θs st).2.lrEvents = st.lrEvents := by
  induction θs generalizing st with
  | nil => exact ⟨rfl, rfl⟩
  | cons θ θs ih =>
    have h := closure_ghost cfg θ st
    unfold closures
    split
    · rename_i heq; rw [heq] at h; exact h
    · rename_i heq
      rw [heq] at h
      rw [(ih _).1, (ih _).2]
      exact h

/-- The record of epoch losses grows by exactly the current loss, unless the optimiser step raised. -/
theorem runEpoch_ghost (cfg : TrainCfg) (e : ℕ) (o : OptStep) (st : TrainState) :
    ((runEpoch cfg e o st).2.epochLoss = st.epochLoss ++ [(runEpoch cfg e o st).2.loss] ∨
      (runEpoch cfg e o st).2.epochLoss = st.epochLoss ∧ ∃ err, (runEpoch cfg e o st).1 = .error err) ∧
    ((runEpoch cfg e o st).2.lrEvents = st.lrEvents ∨ ∃ f : ℝ, (f = 0.5 ∨ f = 0.3 ∨ f = 0.7) ∧ 50 ∣ e ∧
      (runEpoch cfg e o st).2.lrEvents = st.lrEvents ++ [(e, f)]) := by
  have hg := closures_ghost cfg o.queries st
  unfold runEpoch
  split
  · rename_i heq
    rw [heq] at hg
    exact ⟨.inr ⟨hg.1, _, rfl⟩, .inl hg.2⟩
  · rename_i st1 heq
    rw [heq] at hg
    simp only at hg ⊢
    by_cases h1 : cfg.prob.learnable = true
    swap
    · rw [if_pos h1]; exact ⟨.inl (by rw [hg.1]), .inl hg.2⟩
    rw [if_neg (not_not.2 h1)]
    by_cases h2 : st1.loss.IsFin
    swap
    · rw [if_pos h2]; exact ⟨.inl (by rw [hg.1]), .inl hg.2⟩
    rw [if_neg (not_not.2 h2)]
    by_cases h3 : Fl.lt st1.loss (fin cfg.prob.tol)
    · rw [if_pos h3]; exact ⟨.inl (by rw [hg.1]), .inl hg.2⟩
    rw [if_neg h3]
    by_cases h4 : e % 50 = 0
    swap
    · rw [if_neg h4]; exact ⟨.inl (by rw [hg.1]), .inl hg.2⟩
    rw [if_pos h4]
    split
    · exact ⟨.inl (by rw [hg.1]), .inl hg.2⟩
    · rename_i adv _
      split
      · exact ⟨.inl (by rw [hg.1]), .inl hg.2⟩
      · rename_i f hf
        refine ⟨.inl (by rw [hg.1]), .inr ⟨f, ?_, Nat.dvd_of_mod_eq_zero h4, by rw [hg.2]⟩⟩
        cases adv <;> simp only [LRAdvice.factor, Option.some.injEq, reduceCtorEq] at hf <;> simp [← hf]

/-- Epoch losses of a run that ended without exception. -/
theorem runEpochs_ok {cfg : TrainCfg} {opt : ℕ → OptStep} {n e : ℕ} {st st' : TrainState}
    (h : runEpochs cfg opt e n st = (.ok (), st')) :
    ∃ new, st'.epochLoss = st.epochLoss ++ new ∧ new.length ≤ n ∧
      (∀ l ∈ new, l.IsFin) ∧ (∀ l ∈ new.dropLast, ¬ Fl.lt l (fin cfg.prob.tol)) ∧
      (new.length < n → ∃ l, new.getLast? = some l ∧ Fl.lt l (fin cfg.prob.tol)) ∧
      (0 < n → cfg.prob.learnable = true ∧ new.getLast? = some st'.loss) ∧ (n = 0 → st' = st) := by
  induction n generalizing e st with
  | zero =>
    simp only [runEpochs, Prod.mk.injEq, true_and] at h
    exact ⟨[], by simp [h], by simp, by simp, by simp, by simp, by simp, fun _ => h.symm⟩
  | succ n ih =>
    rw [runEpochs] at h
    split at h
    · simp at h
    · rename_i st1 heq
      simp only [Prod.mk.injEq, true_and] at h
      subst h
      obtain ⟨hl, x, hx, hb⟩ := runEpoch_ok heq
      have hg := (runEpoch_ghost cfg e (opt e) st).1
      rw [heq] at hg
      simp only [reduceCtorEq, exists_false, and_false, or_false] at hg
      have hlt : Fl.lt st1.loss (fin cfg.prob.tol) := by rw [hx, lt_fin]; exact hb.1 rfl
      refine ⟨[st1.loss], hg, by simp, ?_, by simp, fun _ => ⟨_, rfl, hlt⟩, fun _ => ⟨hl, rfl⟩, by simp⟩
      simp [hx]
    · rename_i st1 heq
      obtain ⟨hl, x, hx, hb⟩ := runEpoch_ok heq
      have hg := (runEpoch_ghost cfg e (opt e) st).1
      rw [heq] at hg
      simp only [reduceCtorEq, exists_false, and_false, or_false] at hg
      have hlt : ¬ Fl.lt st1.loss (fin cfg.prob.tol) := by
        rw [hx, lt_fin]
        simpa using hb.symm.not
      obtain ⟨new, h1, h2, h3, h4, h5, h6, h7⟩ := ih h
      refine ⟨st1.loss :: new, by rw [h1, hg]; simp, by simp; omega, ?_, ?_, ?_, fun _ => ⟨hl, ?_⟩, by simp⟩
      · simp only [List.mem_cons, forall_eq_or_imp]
        exact ⟨by simp [hx], h3⟩
      · rcases new with _ | ⟨a, l⟩
        · simp
        · simp only [List.dropLast_cons_of_ne_nil (List.cons_ne_nil a l), List.mem_cons, forall_eq_or_imp]
          exact ⟨hlt, h4⟩
      · intro hlen
        simp only [List.length_cons, Nat.add_lt_add_iff_right] at hlen
        obtain ⟨l, hl1, hl2⟩ := h5 hlen
        refine ⟨l, ?_, hl2⟩
        rw [List.getLast?_cons, hl1]; rfl
      · rcases Nat.eq_zero_or_pos n with rfl | hn
        · obtain rfl := List.length_eq_zero_iff.1 (Nat.le_zero.1 h2)
          rw [h7 rfl]
          rfl
        · rw [List.getLast?_cons, (h6 hn).2]; rfl

theorem calibrateStart_ghost {cfg : TrainCfg} {s : OPS} {r : Except PyErr Unit} {st : TrainState}
    (h : calibrateStart cfg s = (r, st)) : st.epochLoss = [] ∧ st.lrEvents = [] ∧ st.eCount = 0 := by
  unfold calibrateStart at h
  simp only at h
  split at h
  · simp only [Prod.mk.injEq] at h; rw [← h.2]; exact ⟨rfl, rfl, rfl⟩
  · split at h
    · simp only [Prod.mk.injEq] at h; rw [← h.2]; exact ⟨rfl, rfl, rfl⟩
    · split at h <;> (simp only [Prod.mk.injEq] at h; rw [← h.2]; exact ⟨rfl, rfl, rfl⟩)

theorem paramVec_head (ln : Bool) (s : OPS) (b : Bool) :
    (calibratedParams b (s.paramVec ln)).L = Real.exp s.logL ∧
    (calibratedParams b (s.paramVec ln)).Gamma = Real.exp s.logT ∧
    (calibratedParams b (s.paramVec ln)).sigma = Real.exp s.logM := ⟨rfl, rfl, rfl⟩

/-- **C39** When `calibrate` returns, it has performed at most `nepochs` optimiser steps; the loss after each of them was
a finite number; only the last could be below the tolerance, and it is if fewer than `nepochs` steps were made; the
returned values are the current scales of the model. -/
theorem C39_returns (cfg : TrainCfg) (opt : ℕ → OptStep) (s : OPS) {r : Calibrated} {st : TrainState}
    (h : calibrate cfg opt s = (.ok r, st)) :
    st.epochLoss.length ≤ cfg.prob.nepochs ∧
    (∀ l ∈ st.epochLoss, ∃ x : ℝ, l = fin x) ∧
    (∀ l ∈ st.epochLoss.dropLast, ∃ x : ℝ, l = fin x ∧ cfg.prob.tol ≤ x) ∧
    (st.epochLoss.length < cfg.prob.nepochs → ∃ x : ℝ, st.epochLoss.getLast? = some (fin x) ∧ x < cfg.prob.tol) ∧
    (0 < cfg.prob.nepochs → st.epochLoss.getLast? = some st.loss) ∧
    (r.L, r.Gamma, r.sigma) = st.ops.expScalesValue := by
  unfold calibrate at h
  split at h
  · simp at h
  · rename_i st0 heq
    split at h
    · simp at h
    · rename_i st1 heq2
      simp only [Prod.mk.injEq, Except.ok.injEq] at h
      obtain ⟨hr, rfl⟩ := h
      obtain ⟨new, h1, h2, h3, h4, h5, h6, -⟩ := runEpochs_ok heq2
      rw [(calibrateStart_ghost heq).1, List.nil_append] at h1
      rw [h1]
      refine ⟨h2, fun l hl => isFin_iff.1 (h3 l hl), ?_, ?_, fun hn => (h6 hn).2, ?_⟩
      · intro l hl
        obtain ⟨x, rfl⟩ := isFin_iff.1 (h3 l (List.dropLast_subset _ hl))
        have := h4 _ hl
        rw [lt_fin] at this
        exact ⟨x, rfl, not_lt.1 this⟩
      · intro hlen
        obtain ⟨l, hl1, hl2⟩ := h5 hlen
        obtain ⟨x, rfl⟩ := isFin_iff.1 (h3 l (List.mem_of_getLast? hl1))
        rw [lt_fin] at hl2
        exact ⟨x, hl1, hl2⟩
      · rw [← hr]
        obtain ⟨e1, e2, e3⟩ := paramVec_head cfg.prob.learnNu st1.ops cfg.prob.learnable
        rw [e1, e2, e3]; rfl

/-- **C39** Without a learnable spectrum, training for at least one epoch never returns: the progress printout reads
attributes that do not exist, so a first step that goes through is followed by `AttributeError`. -/
theorem C39_fixed_spectrum_raises (cfg : TrainCfg) (opt : ℕ → OptStep) (s : OPS) (hl : cfg.prob.learnable = false)
    (hn : 1 ≤ cfg.prob.nepochs) :
    (∃ e st, calibrate cfg opt s = (.error e, st)) ∧
    (∀ st st', calibrateStart cfg s = (.ok (), st) → closures cfg (opt 1).queries st = (.ok (), st') →
      (calibrate cfg opt s).1 = .error .attributeError) := by
  obtain ⟨n, hn'⟩ : ∃ n, cfg.prob.nepochs = n + 1 := ⟨cfg.prob.nepochs - 1, by omega⟩
  have hnot : ∀ st b st', runEpoch cfg 1 (opt 1) st ≠ (.ok b, st') := by
    intro st b st' h
    have := (runEpoch_ok h).1
    rw [hl] at this
    simp at this
  constructor
  · unfold calibrate
    split
    · exact ⟨_, _, rfl⟩
    · rename_i st0 _
      rw [hn', runEpochs]
      rcases hr : runEpoch cfg 1 (opt 1) st0 with ⟨_ | b, st1⟩
      · exact ⟨_, _, rfl⟩
      · exact absurd hr (hnot _ _ _)
  · intro st st' h1 h2
    unfold calibrate
    rw [h1]
    simp only
    rw [hn', runEpochs]
    have : ∃ st2, runEpoch cfg 1 (opt 1) st = (.error .attributeError, st2) := by
      unfold runEpoch
      rw [h2]
      simp only [hl, Bool.false_eq_true, not_false_eq_true, if_true]
      exact ⟨_, rfl⟩
    obtain ⟨st2, h3⟩ := this
    rw [h3]

/-- **C39** With zero epochs the untrained scales are returned. -/
theorem C39_zero_epochs (cfg : TrainCfg) (opt : ℕ → OptStep) (s : OPS) (hn : cfg.prob.nepochs = 0) {st : TrainState}
    (h : calibrateStart cfg s = (.ok (), st)) :
    ∃ r, calibrate cfg opt s = (.ok r, st) ∧ (r.L, r.Gamma, r.sigma) = s.expScalesValue := by
  have ha := arch_start cfg.prob.learnNu cfg s
  have hlog : st.ops.logL = s.logL ∧ st.ops.logT = s.logT ∧ st.ops.logM = s.logM := by
    clear ha
    have key : ∀ (r : Except PyErr Unit × OPS), (r.2.logL = s.logL ∧ r.2.logT = s.logT ∧ r.2.logM = s.logM) →
        ∀ (q : Except PyErr Unit) (st : TrainState),
        (match r with
        | (.error e, ops) => ((.error e : Except PyErr Unit), (⟨ops, LossState.init, fin 0, 0, [], []⟩ : TrainState))
        | (.ok _, ops) =>
          match OPS.forward cfg.k1s ops with
          | (.error e, ops) => (.error e, ⟨ops, LossState.init, fin 0, 0, [], []⟩)
          | (.ok y, ops) =>
            match lossEval cfg.loss cfg.k1s cfg.phys.zref
                ⟨y.take cfg.prob.nc.toNat, cfg.target, genTheta cfg ops, none⟩ LossState.init with
            | (.error e, agg) => (.error e, ⟨ops, agg, fin 0, 0, [], []⟩)
            | (.ok l, agg) => (.ok (), ⟨ops, agg, l, 0, [], []⟩)) = (q, st) →
        st.ops.logL = s.logL ∧ st.ops.logT = s.logT ∧ st.ops.logM = s.logM := by
      rintro ⟨_ | _, ops⟩ hr q st h
      · simp only [Prod.mk.injEq] at h; rw [← h.2]; exact hr
      · have hf := (forward_same cfg.k1s ops).2
        simp only at h hr
        split at h
        · rename_i heq
          simp only [Prod.mk.injEq] at h
          rw [heq] at hf
          rw [← h.2]
          exact ⟨hf.1.trans hr.1, hf.2.1.trans hr.2.1, hf.2.2.1.trans hr.2.2⟩
        · rename_i heq
          rw [heq] at hf
          split at h <;>
          · simp only [Prod.mk.injEq] at h
            rw [← h.2]
            exact ⟨hf.1.trans hr.1, hf.2.1.trans hr.2.1, hf.2.2.1.trans hr.2.2⟩
    unfold calibrateStart at h
    refine key _ ?_ _ _ h
    split
    · exact ⟨rfl, rfl, rfl⟩
    · rename_i c _
      have hc : ∀ r : Except PyErr (List (List (List Fl))) × OPS, computeModelCoherence cfg.phys c.freqs c.seps s = r →
          r.2.logL = s.logL ∧ r.2.logT = s.logT ∧ r.2.logM = s.logM := by
        rintro r rfl
        unfold computeModelCoherence
        simp only
        have hcs := (coherence_same ((c.freqs.filter fun f => decide (1e-6 < f)).map
          fun f => cfg.phys.factor * f / cfg.phys.Uref) c.seps s).2
        split <;> rename_i heq <;> rw [heq] at hcs <;> exact ⟨hcs.1, hcs.2.1, hcs.2.2.1⟩
      split <;> rename_i heq <;> exact hc _ heq
  unfold calibrate
  rw [h]
  simp only [hn, runEpochs]
  refine ⟨_, rfl, ?_⟩
  obtain ⟨e1, e2, e3⟩ := paramVec_head cfg.prob.learnNu st.ops cfg.prob.learnable
  rw [e1, e2, e3, hlog.1, hlog.2.1, hlog.2.2]; rfl

theorem runEpochs_ghost (cfg : TrainCfg) (opt : ℕ → OptStep) (n e : ℕ) (st : TrainState) :
    (∃ new, (runEpochs cfg opt e n st).2.epochLoss = st.epochLoss ++ new ∧ new.length ≤ n) ∧
    (∃ new, (runEpochs cfg opt e n st).2.lrEvents = st.lrEvents ++ new ∧
      (∀ q ∈ new, 50 ∣ q.1 ∧ e ≤ q.1 ∧ q.1 < e + n ∧ (q.2 = 0.5 ∨ q.2 = 0.3 ∨ q.2 = 0.7)) ∧
      new.Pairwise fun a b => a.1 < b.1) := by
  induction n generalizing e st with
  | zero => exact ⟨⟨[], by simp [runEpochs]⟩, ⟨[], by simp [runEpochs]⟩⟩
  | succ n ih =>
    obtain ⟨h1, h2⟩ := runEpoch_ghost cfg e (opt e) st
    have h1' : ∃ new, (runEpoch cfg e (opt e) st).2.epochLoss = st.epochLoss ++ new ∧ new.length ≤ 1 := by
      rcases h1 with h | ⟨h, -⟩
      · exact ⟨_, h, by simp⟩
      · exact ⟨[], by simp [h]⟩
    have h2' : ∃ new, (runEpoch cfg e (opt e) st).2.lrEvents = st.lrEvents ++ new ∧
        (∀ q ∈ new, 50 ∣ q.1 ∧ q.1 = e ∧ (q.2 = 0.5 ∨ q.2 = 0.3 ∨ q.2 = 0.7)) ∧ new.length ≤ 1 := by
      rcases h2 with h | ⟨f, hf, hd, h⟩
      · exact ⟨[], by simp [h]⟩
      · refine ⟨[(e, f)], h, ?_, by simp⟩
        intro q hq
        obtain rfl := List.mem_singleton.1 hq
        exact ⟨hd, rfl, hf⟩
    obtain ⟨n1, a1, a2⟩ := h1'
    obtain ⟨n2, b1, b2, b3⟩ := h2'
    have bp : n2.Pairwise fun a b => a.1 < b.1 := by
      rcases n2 with _ | ⟨x, _ | _⟩
      · simp
      · simp
      · simp at b3
    have stop : (∃ new, (runEpoch cfg e (opt e) st).2.epochLoss = st.epochLoss ++ new ∧ new.length ≤ n + 1) ∧
        (∃ new, (runEpoch cfg e (opt e) st).2.lrEvents = st.lrEvents ++ new ∧
          (∀ q ∈ new, 50 ∣ q.1 ∧ e ≤ q.1 ∧ q.1 < e + (n + 1) ∧ (q.2 = 0.5 ∨ q.2 = 0.3 ∨ q.2 = 0.7)) ∧
          new.Pairwise fun a b => a.1 < b.1) :=
      ⟨⟨n1, a1, by omega⟩, ⟨n2, b1, fun q hq => ⟨(b2 q hq).1, by rw [(b2 q hq).2.1], by rw [(b2 q hq).2.1]; omega,
        (b2 q hq).2.2⟩, bp⟩⟩
    rw [runEpochs]
    split
    · rename_i heq; rw [heq] at stop; exact stop
    · rename_i heq; rw [heq] at stop; exact stop
    · rename_i st1 heq
      rw [heq] at a1 b1
      obtain ⟨⟨m1, c1, c2⟩, ⟨m2, d1, d2, d3⟩⟩ := ih (e + 1) st1
      refine ⟨⟨n1 ++ m1, by rw [c1, a1, List.append_assoc], by simp; omega⟩, ⟨n2 ++ m2, by rw [d1, b1, List.append_assoc],
        ?_, ?_⟩⟩
      · intro q hq
        rcases List.mem_append.1 hq with hq | hq
        · exact ⟨(b2 q hq).1, by rw [(b2 q hq).2.1], by rw [(b2 q hq).2.1]; omega, (b2 q hq).2.2⟩
        · obtain ⟨x1, x2, x3, x4⟩ := d2 q hq
          exact ⟨x1, by omega, by omega, x4⟩
      · refine List.pairwise_append.2 ⟨bp, d3, ?_⟩
        intro a ha b hb
        have := (b2 a ha).2.1
        have := (d2 b hb).2.1
        omega

/-- **C39** Whatever the outcome, at most `nepochs` optimiser steps are made, and the learning rate is only ever reduced
by a factor 0.5, 0.3 or 0.7, at most once every 50 epochs. -/
theorem C39_bounded (cfg : TrainCfg) (opt : ℕ → OptStep) (s : OPS) :
    (calibrate cfg opt s).2.epochLoss.length ≤ cfg.prob.nepochs ∧
    (∀ q ∈ (calibrate cfg opt s).2.lrEvents, 50 ∣ q.1 ∧ 1 ≤ q.1 ∧ q.1 ≤ cfg.prob.nepochs ∧
      (q.2 = 0.5 ∨ q.2 = 0.3 ∨ q.2 = 0.7)) ∧
    (calibrate cfg opt s).2.lrEvents.Pairwise fun a b => a.1 < b.1 := by
  unfold calibrate
  rcases hs : calibrateStart cfg s with ⟨_ | u, st⟩
  · obtain ⟨h1, h2, -⟩ := calibrateStart_ghost hs
    simp [h1, h2]
  · obtain ⟨h1, h2, -⟩ := calibrateStart_ghost hs
    obtain ⟨⟨n1, a1, a2⟩, ⟨n2, b1, b2, b3⟩⟩ := runEpochs_ghost cfg opt cfg.prob.nepochs 1 st
    rw [h1, List.nil_append] at a1
    rw [h2, List.nil_append] at b1
    have goal : (runEpochs cfg opt 1 cfg.prob.nepochs st).2.epochLoss.length ≤ cfg.prob.nepochs ∧
        (∀ q ∈ (runEpochs cfg opt 1 cfg.prob.nepochs st).2.lrEvents, 50 ∣ q.1 ∧ 1 ≤ q.1 ∧ q.1 ≤ cfg.prob.nepochs ∧
          (q.2 = 0.5 ∨ q.2 = 0.3 ∨ q.2 = 0.7)) ∧
        (runEpochs cfg opt 1 cfg.prob.nepochs st).2.lrEvents.Pairwise fun a b => a.1 < b.1 := by
      rw [a1, b1]
      refine ⟨a2, fun q hq => ?_, b3⟩
      obtain ⟨x1, x2, x3, x4⟩ := b2 q hq
      exact ⟨x1, x2, by omega, x4⟩
    simp only
    split <;> rename_i heq <;> rw [heq] at goal <;> exact goal

/-! ### C80: own data -/

theorem not_fin_add {a : Fl} (h : ¬ a.IsFin) (b : Fl) : ¬ (a + b).IsFin := by
  intro hf
  obtain ⟨z, hz⟩ := isFin_iff.1 hf
  rcases a with _ | _ | _ | x <;> rcases b with _ | _ | _ | y <;> first
    | (exact h (isFin_iff.2 ⟨_, rfl⟩))
    | (exact absurd hz (by change Fl.add _ _ ≠ _; simp [Fl.add]))

theorem lossEval_zero_target (p : LossParams) (k1s : List ℝ) (zref : ℝ) (a : EvalArgs) (ls : LossState)
    (h : ∃ row ∈ a.yData, fin 0 ∈ row) {l : Fl} (hl : (lossEval p k1s zref a ls).1 = .ok l) : ¬ l.IsFin := by
  have hm : ∀ m, mseTerm a.y a.yData = .ok m → m = pinf := by
    intro m hm
    by_cases hs : sameShape a.y a.yData
    · rcases mse_zero_target hs h with h' | h' <;> rw [h'] at hm
      · simp at hm
      · simpa using hm.symm
    · rw [mseTerm, if_neg hs] at hm; simp at hm
  unfold lossEval at hl
  split at hl
  · simp at hl
  · rename_i v hv
    simp only [Except.ok.injEq] at hl
    have := hm v.mse (evalTerms_ok.1 hv).1
    rw [← hl, this]
    exact not_fin_add (not_fin_add (not_fin_add (not_fin_add (by simp) _) _) _) _

theorem closure_zero_target {cfg : TrainCfg} (h : ∃ row ∈ cfg.target, fin 0 ∈ row) {θ : List ℝ} {st st' : TrainState}
    {l : Fl} (hc : closure cfg θ st = (.ok l, st')) : ¬ st'.loss.IsFin := by
  unfold closure at hc
  simp only at hc
  split at hc
  · simp at hc
  · split at hc
    · simp at hc
    · rename_i coh ops _
      split at hc
      · simp at hc
      · rename_i heq
        simp only [Prod.mk.injEq, Except.ok.injEq] at hc
        rw [← hc.2]
        exact lossEval_zero_target _ _ _ _ _ (by exact h) (congrArg Prod.fst heq)

theorem closures_zero_target {cfg : TrainCfg} (h : ∃ row ∈ cfg.target, fin 0 ∈ row) {θs : List (List ℝ)} (hne : θs ≠ [])
    {st st' : TrainState} (hc : closures cfg θs st = (.ok (), st')) : ¬ st'.loss.IsFin := by
  induction θs generalizing st with
  | nil => exact absurd rfl hne
  | cons θ θs ih =>
    rw [closures] at hc
    split at hc
    · simp at hc
    · rename_i heq
      have h1 := closure_zero_target h heq
      rcases eq_or_ne θs [] with rfl | hne'
      · simp only [closures, Prod.mk.injEq, true_and] at hc
        rw [← hc]; exact h1
      · exact ih hne' hc

/-- A target containing a zero entry can never be fitted: `calibrate` ends with an exception. -/
theorem calibrate_zero_target (cfg : TrainCfg) (opt : ℕ → OptStep) (s : OPS) (h : ∃ row ∈ cfg.target, fin 0 ∈ row)
    (hn : 1 ≤ cfg.prob.nepochs) (hq : (opt 1).queries ≠ []) : ∃ e st, calibrate cfg opt s = (.error e, st) := by
  obtain ⟨n, hn'⟩ : ∃ n, cfg.prob.nepochs = n + 1 := ⟨cfg.prob.nepochs - 1, by omega⟩
  unfold calibrate
  split
  · exact ⟨_, _, rfl⟩
  · rename_i st0 _
    rw [hn', runEpochs]
    rcases hr : runEpoch cfg 1 (opt 1) st0 with ⟨_ | b, st1⟩
    · exact ⟨_, _, rfl⟩
    · exfalso
      obtain ⟨-, x, hx, -⟩ := runEpoch_ok hr
      unfold runEpoch at hr
      split at hr
      · simp at hr
      · rename_i st2 heq
        have h1 := closures_zero_target h hq heq
        simp only at hr
        rw [if_pos (show ¬ st2.loss.IsFin from h1)] at hr
        split_ifs at hr <;> simp at hr

/-- **C80** Fitting data produced by the library itself: training with at least one epoch and an optimiser that evaluates
the closure never returns for von Karman data with four or six components, nor for Kaimal data with six, whatever the
model, the loss coefficients and the optimiser. -/
theorem C80_own_data {L : ℝ} (hL : 0 < L) (C : ℝ) {zref : ℝ} (hz : 0 < zref) (ustar : ℝ) {k1s : List ℝ} (hne : k1s ≠ [])
    (hk : ∀ k ∈ k1s, 0 < k) (cfg : TrainCfg) (opt : ℕ → OptStep) (s : OPS) (hn : 1 ≤ cfg.prob.nepochs)
    (hq : (opt 1).queries ≠ []) :
    (∀ ops, generateVonKarman k1s L C = .ok ops → ∀ nc : ℕ, nc = 4 ∨ nc = 6 →
      targetRows nc ops k1s.length = .ok cfg.target → ∃ e st, calibrate cfg opt s = (.error e, st)) ∧
    (targetRows 6 (generateKaimal k1s zref ustar) k1s.length = .ok cfg.target →
      ∃ e st, calibrate cfg opt s = (.error e, st)) := by
  constructor
  · intro ops ho nc hnc ht
    rw [vkData_eq hk hL] at ho
    simp only [Except.ok.injEq] at ho
    have hl : k1s.length = ops.length := by rw [← ho, List.length_map]
    rw [hl, C40_target nc (by tauto) ops] at ht
    simp only [Except.ok.injEq] at ht
    refine calibrate_zero_target cfg opt s ⟨ops.map fun m => m 0 2, ?_, ?_⟩ hn hq
    · rw [← ht]
      refine List.mem_map.2 ⟨(0, 2), ?_, rfl⟩
      rcases hnc with rfl | rfl <;> simp [Spec.componentOrder]
    · obtain ⟨k, hkm⟩ := List.exists_mem_of_ne_nil _ hne
      rw [← ho, List.map_map]
      exact List.mem_map.2 ⟨k, hkm, by simp⟩
  · intro ht
    obtain ⟨S, hS, -, h0, -⟩ := C28_kaimal
    rw [hS k1s zref ustar hz hk] at ht
    set ops := k1s.map fun k (i j : Fin 3) => fin (ustar ^ 2 * S i j (k * zref)) with hops
    have hl : k1s.length = ops.length := by rw [hops, List.length_map]
    rw [hl, C40_target 6 (by tauto) ops] at ht
    simp only [Except.ok.injEq] at ht
    refine calibrate_zero_target cfg opt s ⟨ops.map fun m => m 1 2, ?_, ?_⟩ hn hq
    · rw [← ht]
      exact List.mem_map.2 ⟨(1, 2), by simp [Spec.componentOrder], rfl⟩
    · obtain ⟨k, hkm⟩ := List.exists_mem_of_ne_nil _ hne
      rw [hops, List.map_map]
      refine List.mem_map.2 ⟨k, hkm, ?_⟩
      simp only [Function.comp_apply]
      rw [h0 1 2 _ (by decide) (by decide), mul_zero]

/-! ### C40: what the loss of the training loop compares -/

theorem pairs_length_const {n : ℕ} : ∀ {a b : List (List ℝ)}, a.length = b.length → (∀ r ∈ a, r.length = n) →
    (∀ r ∈ b, r.length = n) → (pairs a b).length = a.length * n
  | [], _, _, _, _ => by simp [pairs]
  | _ :: _, [], h, _, _ => by simp at h
  | r :: a, q :: b, h, ha, hb => by
    have ih := pairs_length_const (a := a) (b := b) (by simpa using h) (fun x hx => ha x (List.mem_cons_of_mem _ hx))
      fun x hx => hb x (List.mem_cons_of_mem _ hx)
    unfold pairs at ih ⊢
    rw [List.zipWith_cons_cons, List.flatten_cons, List.length_append, ih, List.length_zip, ha r (by simp), hb q (by simp),
      List.length_cons]
    simp
    ring

/-- The mean squared log-ratio of the first `nc` rows of a prediction to the tensor entries these rows represent. -/
def Spec.misfit (nc : ℕ) (y : List (List ℝ)) (data : List (Fin 3 → Fin 3 → ℝ)) : ℝ :=
  ((pairs (y.take nc) ((Spec.componentOrder.take nc).map fun q => data.map fun m => m q.1 q.2)).map
    fun q => (Real.log |q.1| - Real.log |q.2|) ^ 2).sum / (nc * data.length)

theorem lossEval_misfit (p : LossParams) (h1 : p.alphaPen1 ≤ 0) (h2 : p.alphaPen2 ≤ 0) (h3 : p.betaReg ≤ 0)
    {nc : ℕ} (hnc : nc = 3 ∨ nc = 4 ∨ nc = 6) {k1s : List ℝ} {data : List (Fin 3 → Fin 3 → ℝ)} (hne : data ≠ [])
    (hlen : data.length = k1s.length) {target : List (List Fl)}
    (ht : targetRows nc (data.map fun m i j => fin (m i j)) k1s.length = .ok target)
    (hd : ∀ m ∈ data, ∀ q ∈ Spec.componentOrder.take nc, m q.1 q.2 ≠ 0) {s : OPS} {y : List (List ℝ)}
    (hy : (OPS.forward k1s s).1 = .ok (tens y)) (hy0 : NoZero (y.take nc)) (zref : ℝ) (theta : Theta) (st : LossState) :
    ∃ st', lossEval p k1s zref ⟨(tens y).take nc, target, theta, none⟩ st = (.ok (fin (Spec.misfit nc y data)), st') := by
  set T := (Spec.componentOrder.take nc).map fun q => data.map fun m => m q.1 q.2 with hT
  have hl' : k1s.length = (data.map fun (m : Fin 3 → Fin 3 → ℝ) (i j : Fin 3) => fin (m i j)).length := by simp [hlen]
  have hTl : T.length = nc := by
    rw [hT, List.length_map, List.length_take]
    rcases hnc with rfl | rfl | rfl <;> rfl
  have htens : target = tens T := by
    rw [hl', C40_target nc hnc] at ht
    simp only [Except.ok.injEq] at ht
    rw [← ht, hT]
    simp [tens, Function.comp_def]
  -- shape of the prediction
  have hshape : y.length = 6 ∧ ∀ r ∈ y, r.length = k1s.length := by
    rw [forward_eq] at hy
    simp only [Except.ok.injEq] at hy
    have hm := congrArg (List.map List.length) hy
    have e2 : (tens y).map List.length = y.map List.length := by simp [tens, Function.comp_def]
    rw [e2] at hm
    have e1 : (y.map List.length) = List.replicate 6 k1s.length := by
      rw [← hm]
      simp [phiSelectors]
    refine ⟨by simpa using congrArg List.length e1, fun r hr => ?_⟩
    have : r.length ∈ y.map List.length := List.mem_map_of_mem hr
    rw [e1] at this
    exact List.eq_of_mem_replicate this
  have hyl : (y.take nc).length = nc := by
    rw [List.length_take, hshape.1]
    rcases hnc with rfl | rfl | rfl <;> rfl
  have hyr : ∀ r ∈ y.take nc, r.length = data.length := fun r hr => by
    rw [hlen]; exact hshape.2 r (List.mem_of_mem_take hr)
  have hTr : ∀ r ∈ T, r.length = data.length := by
    intro r hr
    obtain ⟨q, -, rfl⟩ := List.mem_map.1 hr
    simp
  have hpl : (pairs (y.take nc) T).length = nc * data.length := by
    rw [pairs_length_const (n := data.length) (hyl.trans hTl.symm) hyr hTr, hyl]
  have hsame : (y.take nc).map List.length = T.map List.length := by
    rw [List.eq_replicate_of_mem (a := data.length) (l := (y.take nc).map List.length)
        (by
          intro b hb
          obtain ⟨r, hr, rfl⟩ := List.mem_map.1 hb
          exact hyr r hr),
      List.eq_replicate_of_mem (a := data.length) (l := T.map List.length) (by
        intro b hb
        obtain ⟨r, hr, rfl⟩ := List.mem_map.1 hb
        exact hTr r hr)]
    rw [List.length_map, List.length_map, hyl, hTl]
  have hnc0 : 0 < nc := by rcases hnc with rfl | rfl | rfl <;> norm_num
  have hTz : NoZero T := by
    intro r hr x hx
    obtain ⟨q, hq, rfl⟩ := List.mem_map.1 hr
    obtain ⟨m, hm, rfl⟩ := List.mem_map.1 hx
    exact hd m hm q hq
  have hm := C30_value hsame hy0 hTz (by
    intro h
    have := List.length_pos_iff.2 hne
    rw [h, List.length_nil] at hpl
    have := Nat.mul_pos hnc0 this
    omega)
  have htake : (tens y).take nc = tens (y.take nc) := by simp [tens]
  have hreg : regTerm p ⟨tens (y.take nc), tens T, theta, none⟩ = .ok (fin 0) := by
    unfold regTerm
    cases theta <;> simp [not_lt.2 h3]
  have hev : evalTerms p k1s zref ⟨tens (y.take nc), tens T, theta, none⟩ =
      .ok ⟨fin (Spec.misfit nc y data), fin 0, fin 0, fin 0, fin 0⟩ := by
    refine evalTerms_ok.2 ⟨?_, rfl, ?_, ?_, hreg⟩
    · rw [hm, hpl, Spec.misfit, ← hT]
      push_cast
      rfl
    · simp [pen1Term, not_lt.2 h1]
    · simp [pen2Term, not_lt.2 h2]
  rw [htake, htens]
  unfold lossEval
  rw [hev]
  simp only [fin_add_fin, add_zero]
  exact ⟨_, rfl⟩

/-- **C40** Without optional loss terms, one closure evaluation returns the mean, over the requested components and the
data wavenumbers, of the squared log-ratio of the model's component at that wavenumber to the same tensor entry of the
data there; `y` is the prediction of the object with the parameters passed by the optimiser. -/
theorem C40_closure (cfg : TrainCfg) {nc : ℕ} (hnc : nc = 3 ∨ nc = 4 ∨ nc = 6) (hp : cfg.prob.nc = nc) (hcoh : cfg.coh = none)
    (h1 : cfg.loss.alphaPen1 ≤ 0) (h2 : cfg.loss.alphaPen2 ≤ 0) (h3 : cfg.loss.betaReg ≤ 0)
    {data : List (Fin 3 → Fin 3 → ℝ)} (hne : data ≠ []) (hlen : data.length = cfg.k1s.length)
    (ht : targetRows nc (data.map fun m i j => fin (m i j)) cfg.k1s.length = .ok cfg.target)
    (hd : ∀ m ∈ data, ∀ q ∈ Spec.componentOrder.take nc, m q.1 q.2 ≠ 0)
    (θ : List ℝ) (st : TrainState) {y : List (List ℝ)}
    (hy : (OPS.forward cfg.k1s (st.ops.setVec cfg.prob.learnNu θ)).1 = .ok (tens y)) (hy0 : NoZero (y.take nc)) :
    ∃ st', closure cfg θ st = (.ok (fin (Spec.misfit nc y data)), st') ∧ st'.loss = fin (Spec.misfit nc y data) := by
  unfold closure
  rcases hf : OPS.forward cfg.k1s (st.ops.setVec cfg.prob.learnNu θ) with ⟨r, ops⟩
  rw [hf] at hy
  simp only at hy
  subst hy
  simp only [hf, closureCoherence, hcoh, hp, Int.toNat_natCast]
  obtain ⟨agg, ha⟩ := lossEval_misfit cfg.loss h1 h2 h3 hnc hne hlen ht hd (s := st.ops.setVec cfg.prob.learnNu θ)
    (by rw [hf]) hy0 cfg.phys.zref (genTheta cfg ops) st.agg
  rw [ha]
  exact ⟨_, rfl, rfl⟩

/-- **C40** With three components the hypotheses on the prediction are automatic: for positive data wavenumbers and any
lifetime model with finite lifetimes every closure evaluation succeeds and returns the misfit. -/
theorem C40_three (cfg : TrainCfg) (hp : cfg.prob.nc = 3) (hcoh : cfg.coh = none)
    (h1 : cfg.loss.alphaPen1 ≤ 0) (h2 : cfg.loss.alphaPen2 ≤ 0) (h3 : cfg.loss.betaReg ≤ 0)
    {data : List (Fin 3 → Fin 3 → ℝ)} (hne : data ≠ []) (hlen : data.length = cfg.k1s.length)
    (ht : targetRows 3 (data.map fun m i j => fin (m i j)) cfg.k1s.length = .ok cfg.target)
    (hd : ∀ m ∈ data, ∀ i, m i i ≠ 0) (hk : ∀ k ∈ cfg.k1s, 0 < k) (θ : List ℝ) (st : TrainState)
    (hf : (st.ops.setVec cfg.prob.learnNu θ).params.LifetimeFinite) {p1 p2 : ℝ} (hpp : p1 < p2) {n : ℕ} (hn : 1 ≤ n)
    (hg : st.ops.grid = opsGrid p1 p2 n) :
    ∃ y st', (OPS.forward cfg.k1s (st.ops.setVec cfg.prob.learnNu θ)).1 = .ok (tens y) ∧
      closure cfg θ st = (.ok (fin (Spec.misfit 3 y data)), st') ∧ st'.loss = fin (Spec.misfit 3 y data) := by
  have hg' : (st.ops.setVec cfg.prob.learnNu θ).grid = opsGrid p1 p2 n := hg
  obtain ⟨uu, vv, ww, uw, vw, uv, h, hpos⟩ := C18_auto_spectra_positive _ hf
    (by rw [hg']; exact opsGrid_sorted hpp n) cfg.k1s hk
  have hnz : NoZero ([uu, vv, ww, uw, vw, uv].take 3) := by
    intro row hrow x hx
    have hr := hpos row hrow
    obtain ⟨i, hi, rfl⟩ := List.getElem_of_mem hx
    have hi' : i < cfg.k1s.length := by rw [hr.length_eq]; exact hi
    have h5 := List.forall₂_iff_get.1 hr |>.2 i hi' hi
    have h6 := C18_bound_positive hpp hn (hk _ (List.getElem_mem hi'))
    rw [hg'] at h5
    simp only [List.get_eq_getElem] at h5
    linarith
  obtain ⟨st', h7, h8⟩ := C40_closure cfg (nc := 3) (by simp) (by exact_mod_cast hp) hcoh h1 h2 h3 hne hlen ht
    (fun m hm q hq => by
      simp [Spec.componentOrder] at hq
      rcases hq with rfl | rfl | rfl
      · exact hd m hm 0
      · exact hd m hm 1
      · exact hd m hm 2) θ st h hnz
  exact ⟨_, st', h, h7, h8⟩

/-- **C40** The initial loss of a training run is the same misfit, of the prediction before training. -/
theorem C40_initial (cfg : TrainCfg) {nc : ℕ} (hnc : nc = 3 ∨ nc = 4 ∨ nc = 6) (hp : cfg.prob.nc = nc) (hcoh : cfg.coh = none)
    (h1 : cfg.loss.alphaPen1 ≤ 0) (h2 : cfg.loss.alphaPen2 ≤ 0) (h3 : cfg.loss.betaReg ≤ 0)
    {data : List (Fin 3 → Fin 3 → ℝ)} (hne : data ≠ []) (hlen : data.length = cfg.k1s.length)
    (ht : targetRows nc (data.map fun m i j => fin (m i j)) cfg.k1s.length = .ok cfg.target)
    (hd : ∀ m ∈ data, ∀ q ∈ Spec.componentOrder.take nc, m q.1 q.2 ≠ 0)
    (s : OPS) {y : List (List ℝ)} (hy : (OPS.forward cfg.k1s s).1 = .ok (tens y)) (hy0 : NoZero (y.take nc)) :
    ∃ st, calibrateStart cfg s = (.ok (), st) ∧ st.loss = fin (Spec.misfit nc y data) := by
  unfold calibrateStart
  rcases hf : OPS.forward cfg.k1s s with ⟨r, ops⟩
  rw [hf] at hy
  simp only at hy
  subst hy
  simp only [hcoh, hf, hp, Int.toNat_natCast]
  obtain ⟨agg, ha⟩ := lossEval_misfit cfg.loss h1 h2 h3 hnc hne hlen ht hd (s := s)
    (by rw [hf]) hy0 cfg.phys.zref (genTheta cfg ops) LossState.init
  rw [ha]
  exact ⟨_, rfl, rfl⟩

/-! ### C45: model coherence at the data frequencies -/

theorem maskFill_map {α β : Type} (one : β) (p : α → Bool) (g : α → β) (l : List α) :
    maskFill one (l.map p) ((l.filter p).map g) = l.map fun x => if p x then g x else one := by
  induction l with
  | nil => rfl
  | cons a l ih =>
    cases h : p a
    · simp only [List.map_cons, h, List.filter_cons_of_neg (by simp [h] : ¬ p a = true), maskFill, ih]
      simp
    · simp only [List.map_cons, h, List.filter_cons_of_pos h, maskFill, ih]
      simp

open Classical in
/-- **C45** The model coherence compared with the data has, for every component, separation and data frequency `f` (in
place), the model value at wavenumber `factor * f / Uref` if `f > 1e-6` and 1 otherwise; the model values are those that
`SpectralCoherence` returns for that single wavenumber and separation. -/
theorem C45_fill (phys : PhysCfg) (freqs seps : List ℝ) (s : OPS) :
    (computeModelCoherence phys freqs seps s).1 = .ok ([Comp3.u, Comp3.v, Comp3.w].map fun c => seps.map fun r =>
      freqs.map fun f => if 1e-6 < f then
        cohEntry s.params s.cohGridUsed s.cohGridUsed c (phys.factor * f / phys.Uref) r else fin 1) ∧
    ∀ k1 r, (OPS.SpectralCoherence [k1] [r] s).1 =
      .ok ([Comp3.u, Comp3.v, Comp3.w].map fun c => [[cohEntry s.params s.cohGridUsed s.cohGridUsed c k1 r]]) := by
  refine ⟨?_, fun k1 r => by rw [coherence_eq]; simp⟩
  unfold computeModelCoherence
  simp only
  have h := coherence_eq ((freqs.filter fun f => decide (1e-6 < f)).map fun f => phys.factor * f / phys.Uref) seps s
  split
  · rename_i heq
    rw [heq] at h; simp at h
  · rename_i heq
    rw [heq] at h
    simp only [Except.ok.injEq] at h
    simp only [h, Except.ok.injEq, List.map_map]
    apply List.map_congr_left
    intro c _
    simp only [Function.comp_apply, List.map_map]
    apply List.map_congr_left
    intro r _
    simp only [Function.comp_apply]
    have e := maskFill_map (fin 1) (fun f => decide (1e-6 < f))
      (fun f => cohEntry s.params s.cohGridUsed s.cohGridUsed c (phys.factor * f / phys.Uref) r) freqs
    simp only [decide_eq_true_eq] at e
    exact e

/-! ### C46, C47: schedules -/

/-- **C46** The three-phase factor lies in `[0.1, 2]`. -/
theorem C46_bounds {n e : ℝ} (hn : 0 < n) : 0.1 ≤ threePhase n e ∧ threePhase n e ≤ 2 := by
  unfold threePhase
  split_ifs with h1 h2
  · norm_num
  · have h4 : 0 < n * 0.4 := by positivity
    have ha : 0 ≤ (e - n * 0.3) / (n * 0.4) := div_nonneg (by linarith) h4.le
    have hb : (e - n * 0.3) / (n * 0.4) ≤ 1 := by rw [div_le_one h4]; linarith
    constructor <;> norm_num <;> linarith
  · norm_num

/-- **C46** It never increases with the epoch. -/
theorem C46_antitone {n : ℝ} (hn : 0 < n) : Antitone (threePhase n) := by
  intro a b hab
  have h4 : 0 < n * 0.4 := by positivity
  by_cases ha : a < n * 0.3
  · have : threePhase n a = 2 := by unfold threePhase; rw [if_pos ha]; norm_num
    rw [this]; exact (C46_bounds hn).2
  · by_cases hb : b < n * 0.7
    · have hb' : ¬ b < n * 0.3 := by linarith
      have ha' : a < n * 0.7 := by linarith
      unfold threePhase
      rw [if_neg ha, if_neg hb', if_pos ha', if_pos hb]
      have : (a - n * 0.3) / (n * 0.4) ≤ (b - n * 0.3) / (n * 0.4) := by gcongr
      linarith
    · have hb' : ¬ b < n * 0.3 := by linarith
      have : threePhase n b = 0.1 := by unfold threePhase; rw [if_neg hb', if_neg hb]; norm_num
      rw [this]; exact (C46_bounds hn).1

/-- **C46** The three phases: constant 2, linear decay from 2 to 1, then a drop to 0.1. -/
theorem C46_phases {n e : ℝ} (hn : 0 < n) :
    (e < 0.3 * n → threePhase n e = 2) ∧
    (0.3 * n ≤ e → e < 0.7 * n → threePhase n e = 2 - (e / n - 0.3) / 0.4 ∧ 1 < threePhase n e) ∧
    (0.7 * n ≤ e → threePhase n e = 0.1) := by
  refine ⟨fun h => ?_, fun h h' => ?_, fun h => ?_⟩
  · unfold threePhase; rw [if_pos (by linarith)]; norm_num
  · have key : threePhase n e = 2 - (e / n - 0.3) / 0.4 := by
      unfold threePhase
      rw [if_neg (by linarith), if_pos (by linarith)]
      have : n ≠ 0 := hn.ne'
      field_simp
      norm_num
      ring
    refine ⟨key, ?_⟩
    rw [key]
    have : e / n < 0.7 := by rw [div_lt_iff₀ hn]; exact h'
    have : (e / n - 0.3) / 0.4 < 1 := by rw [div_lt_one (by norm_num)]; linarith
    linarith
  · unfold threePhase; rw [if_neg (by linarith), if_neg (by linarith)]; norm_num

example : threePhase 10 5 = 1.5 := by
  rw [((C46_phases (n := 10) (e := 5) (by norm_num)).2.1 (by norm_num) (by norm_num)).1]; norm_num

/-- **C47** Over any history of training evaluations and scheduler creations, the adaptive factor is constantly 1. -/
theorem C47_constant (h : List HistoryCall) (epoch : ℤ) :
    ∀ hist, h.foldl (fun s c => c.run s) none = some hist → adaptiveFactor hist epoch = 1 := by
  have key : ∀ (h : List HistoryCall) (s : Option LossHistory), (∀ x, s = some x → x.total = []) →
      ∀ x, h.foldl (fun s c => c.run s) s = some x → x.total = [] := by
    intro h
    induction h with
    | nil => intro s hs x hx; exact hs x hx
    | cons c h ih =>
      intro s hs
      refine ih (c.run s) ?_
      intro x hx
      cases c with
      | closureEval o c t => exact hs x (by simpa [HistoryCall.run, aggregatorHasLastComponentLosses] using hx)
      | getAdaptive =>
        simp only [HistoryCall.run, Option.some.injEq] at hx
        rw [← hx]
        rcases s with _ | y
        · rfl
        · exact hs y rfl
  intro hist hh
  have := key h none (by simp) hist hh
  norm_num [adaptiveFactor, this]

/-- The history exists once the scheduler has been created. -/
example : ([HistoryCall.closureEval 1 2 3, .getAdaptive, .closureEval 1 2 3].foldl (fun s c => c.run s) none) =
    some ⟨[], [], []⟩ := rfl

/-- **C47** In general: 1 with fewer than ten records; afterwards 0.5 when one objective dominates the other by a factor
10, and otherwise `0.95^(epoch-10)`, which exceeds 1 before epoch 10 and decays afterwards. -/
theorem C47_cases (h : LossHistory) (epoch : ℤ) :
    (h.total.length < 10 → adaptiveFactor h epoch = 1) ∧
    (10 ≤ h.total.length →
      (adaptiveFactor h epoch = 0.5 ∨ adaptiveFactor h epoch = 0.95 ^ (epoch - 10)) ∧
      (0.1 ≤ meanLast5 h.ops / (meanLast5 h.coherence + 1e-8) → meanLast5 h.ops / (meanLast5 h.coherence + 1e-8) ≤ 10 →
        adaptiveFactor h epoch = 0.95 ^ (epoch - 10)) ∧
      (10 < meanLast5 h.ops / (meanLast5 h.coherence + 1e-8) → adaptiveFactor h epoch = 0.5)) := by
  constructor
  · intro h'; unfold adaptiveFactor; rw [if_pos h']; norm_num
  · intro h'
    have h'' : ¬ h.total.length < 10 := by omega
    unfold adaptiveFactor
    simp only [if_neg h'']
    refine ⟨?_, ?_, ?_⟩
    · split_ifs <;> simp
    · intro h1 h2
      rw [if_neg (by linarith), if_neg (by linarith)]
    · intro h1
      rw [if_pos h1]

end
end Verif
