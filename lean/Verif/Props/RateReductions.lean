import Verif.Props.LearningRate

/-!
# C108 (continued): when the learning rate is reduced
-/

namespace Verif
open Fl

noncomputable section

/-- The histories hold exactly the evaluations `vs`. -/
structure Spec.Recorded (vs : List (Five Fl)) (a : LossState) : Prop where
  mse : a.hist.mse = vs.map Five.mse
  coherence : a.hist.coherence = vs.map Five.coherence
  pen1 : a.hist.pen1 = vs.map Five.pen1
  pen2 : a.hist.pen2 = vs.map Five.pen2
  regularization : a.hist.regularization = vs.map Five.regularization
  total : a.total = vs.map fun v => v.mse + v.coherence + v.pen1 + v.pen2 + v.regularization

theorem lossEval_rec {p : LossParams} {k1s : List ℝ} {zref : ℝ} {a : EvalArgs} (ha : a.coherence = none) {s : LossState} {vs : List (Five Fl)}
    (h : Spec.Recorded vs s) :
    ∃ new, Spec.Recorded (vs ++ new) (lossEval p k1s zref a s).2 ∧ (∀ v ∈ new, v.coherence = fin 0) ∧
      ∀ l, (lossEval p k1s zref a s).1 = .ok l → new.length = 1 := by
  unfold lossEval
  rcases hev : evalTerms p k1s zref a with e | v
  · exact ⟨[], by simpa using h, by simp, by simp⟩
  · refine ⟨[v], ⟨?_, ?_, ?_, ?_, ?_, ?_⟩, ?_, fun _ _ => rfl⟩
    · simp [h.mse]
    · simp [h.coherence]
    · simp [h.pen1]
    · simp [h.pen2]
    · simp [h.regularization]
    · simp [h.total]
    · intro w hw
      rw [List.mem_singleton.1 hw]
      have := (evalTerms_ok (v := v)).1 hev
      have h2 := this.2.1
      unfold cohTerm at h2
      rw [ha] at h2
      simp only at h2
      exact (Except.ok.inj h2).symm

theorem closure_rec {cfg : TrainCfg} (hc : cfg.coh = none) {θ : List ℝ} {st : TrainState} {vs : List (Five Fl)}
    (h : Spec.Recorded vs st.agg) :
    ∃ new, Spec.Recorded (vs ++ new) (closure cfg θ st).2.agg ∧ (∀ v ∈ new, v.coherence = fin 0) ∧
      ∀ l, (closure cfg θ st).1 = .ok l → new.length = 1 := by
  unfold closure
  simp only
  rcases OPS.forward cfg.k1s (st.ops.setVec cfg.prob.learnNu θ) with ⟨e | y, ops⟩
  · exact ⟨[], by simpa using h, by simp, by simp⟩
  simp only [closureCoherence, hc]
  obtain ⟨new, h1, h2, h3⟩ := lossEval_rec (p := cfg.loss) (k1s := cfg.k1s) (zref := cfg.phys.zref)
    (a := ⟨y.take cfg.prob.nc.toNat, cfg.target, genTheta cfg ops, none⟩) rfl h
  rcases hl : lossEval cfg.loss cfg.k1s cfg.phys.zref ⟨y.take cfg.prob.nc.toNat, cfg.target, genTheta cfg ops, none⟩ st.agg
    with ⟨e | l, agg⟩
  · rw [hl] at h1
    exact ⟨new, h1, h2, by simp⟩
  · rw [hl] at h1 h3
    exact ⟨new, h1, h2, fun _ _ => h3 l rfl⟩

theorem closures_rec {cfg : TrainCfg} (hc : cfg.coh = none) (qs : List (List ℝ)) {st : TrainState} {vs : List (Five Fl)}
    (h : Spec.Recorded vs st.agg) :
    ∃ new, Spec.Recorded (vs ++ new) (closures cfg qs st).2.agg ∧ (∀ v ∈ new, v.coherence = fin 0) ∧
      ((closures cfg qs st).1 = .ok () → new.length = qs.length) := by
  induction qs generalizing st vs with
  | nil => exact ⟨[], by simpa [closures] using h, by simp, by simp⟩
  | cons q qs ih =>
    obtain ⟨new, h1, h2, h3⟩ := closure_rec hc (θ := q) h
    rw [closures]
    rcases hcl : closure cfg q st with ⟨e | l, st'⟩
    · rw [hcl] at h1
      exact ⟨new, h1, h2, by simp⟩
    · rw [hcl] at h1 h3
      obtain ⟨new', k1, k2, k3⟩ := ih h1
      refine ⟨new ++ new', by rw [← List.append_assoc]; exact k1, ?_, ?_⟩
      · intro v hv
        rcases List.mem_append.1 hv with hv | hv
        · exact h2 v hv
        · exact k2 v hv
      · intro hok
        rw [List.length_append, h3 l rfl, k3 hok, List.length_cons, add_comm]

/-- An evaluation with finite loss and a misfit above `1e-6`. -/
def Spec.Significant (v : Five Fl) : Prop :=
  (v.mse + v.coherence + v.pen1 + v.pen2 + v.regularization).IsFin ∧ Fl.lt (fin 1e-6) v.mse

theorem five_fin {v : Five Fl} (h : (v.mse + v.coherence + v.pen1 + v.pen2 + v.regularization).IsFin) :
    ∃ a b c d e : ℝ, v = ⟨fin a, fin b, fin c, fin d, fin e⟩ := by
  obtain ⟨m, c, p, q, r⟩ := v
  simp only at h
  have key : ∀ x y : Fl, (x + y).IsFin → (∃ a, x = fin a) ∧ ∃ b, y = fin b := by
    intro x y hxy
    cases x <;> cases y <;> first | exact ⟨⟨_, rfl⟩, ⟨_, rfl⟩⟩ | exact absurd hxy (by first | exact not_isFin_nan | exact not_isFin_pinf | exact not_isFin_ninf)
  obtain ⟨⟨x1, h1⟩, e, rfl⟩ := key _ _ h
  obtain ⟨⟨x2, h2⟩, d, rfl⟩ := key _ _ (by rw [h1]; exact isFin_fin _)
  obtain ⟨⟨x3, h3⟩, c', rfl⟩ := key _ _ (by rw [h2]; exact isFin_fin _)
  obtain ⟨⟨a, rfl⟩, b, rfl⟩ := key _ _ (by rw [h3]; exact isFin_fin _)
  exact ⟨a, b, c', d, e, rfl⟩

/-- The decision taken at a check, once 50 significant evaluations without coherence are on record. -/
theorem check_reduces {a : LossState} {vs : List (Five Fl)} (h : Spec.Recorded vs a) (hs : ∀ v ∈ vs, Spec.Significant v)
    (hz : ∀ v ∈ vs, v.coherence = fin 0) (hn : 50 ≤ vs.length) {epoch : ℕ} (he : 50 ≤ epoch) :
    ∃ r f, shouldAdjust a epoch 50 = .ok r ∧ r.factor = some f := by
  have hfin : ∀ v ∈ vs, v = ⟨fin v.mse.toReal, fin v.coherence.toReal, fin v.pen1.toReal, fin v.pen2.toReal,
      fin v.regularization.toReal⟩ := by
    intro v hv
    obtain ⟨x1, x2, x3, x4, x5, rfl⟩ := five_fin (hs v hv).1
    rfl
  have hmap : ∀ f : Five Fl → Fl, (∀ v ∈ vs, f v = fin (f v).toReal) → vs.map f = (vs.map fun v => (f v).toReal).map fin := by
    intro f hf
    rw [List.map_map]
    exact List.map_congr_left hf
  have f1 : ∀ v ∈ vs, v.mse = fin v.mse.toReal := fun v hv => by rw [hfin v hv]; rfl
  have f2 : ∀ v ∈ vs, v.coherence = fin v.coherence.toReal := fun v hv => by rw [hfin v hv]; rfl
  have f3 : ∀ v ∈ vs, v.pen1 = fin v.pen1.toReal := fun v hv => by rw [hfin v hv]; rfl
  have f4 : ∀ v ∈ vs, v.pen2 = fin v.pen2.toReal := fun v hv => by rw [hfin v hv]; rfl
  have f5 : ∀ v ∈ vs, v.regularization = fin v.regularization.toReal := fun v hv => by rw [hfin v hv]; rfl
  have f6 : ∀ v ∈ vs, v.mse + v.coherence + v.pen1 + v.pen2 + v.regularization =
      fin (v.mse + v.coherence + v.pen1 + v.pen2 + v.regularization).toReal := fun v hv => (hs v hv).1.eq
  let hist : Spec.Hist := ⟨vs.map fun v => v.mse.toReal, vs.map fun v => v.coherence.toReal, vs.map fun v => v.pen1.toReal,
    vs.map fun v => v.pen2.toReal, vs.map fun v => v.regularization.toReal,
    vs.map fun v => (v.mse + v.coherence + v.pen1 + v.pen2 + v.regularization).toReal⟩
  have hrec : hist.Records a vs.length := by
    refine ⟨?_, ?_, ?_, ?_, ?_, ?_, ?_, ?_, ?_, ?_, ?_, ?_⟩
    · rw [h.mse]; exact hmap _ f1
    · rw [h.coherence]; exact hmap _ f2
    · rw [h.pen1]; exact hmap _ f3
    · rw [h.pen2]; exact hmap _ f4
    · rw [h.regularization]; exact hmap _ f5
    · rw [h.total]; exact hmap _ f6
    all_goals simp [hist]
  refine C79_disabled_term_dominates a hist hrec (by norm_num) hn he ?_ ?_
  · have : Spec.mean (Spec.last 50 hist.coherence) = 0 := by
      unfold Spec.mean
      have hzero : (Spec.last 50 hist.coherence).sum = 0 := by
        refine List.sum_eq_zero fun x hx => ?_
        have := List.mem_of_mem_drop hx
        obtain ⟨v, hv, rfl⟩ := List.mem_map.1 this
        rw [hz v hv]; rfl
      rw [hzero, zero_div]
    exact List.mem_cons_of_mem _ (List.mem_cons.2 (Or.inl this.symm))
  · refine ⟨Spec.mean (Spec.last 50 hist.mse), List.mem_cons_self, ?_⟩
    have hlen : (Spec.last 50 hist.mse).length = 50 := by
      unfold Spec.last
      rw [List.length_drop]
      have : hist.mse.length = vs.length := by simp [hist]
      omega
    have hall : ∀ x ∈ Spec.last 50 hist.mse, (1e-6 : ℝ) < x := by
      intro x hx
      have := List.mem_of_mem_drop hx
      obtain ⟨v, hv, rfl⟩ := List.mem_map.1 this
      have h2 := (hs v hv).2
      rw [f1 v hv] at h2
      simpa using h2
    unfold Spec.mean
    rw [lt_div_iff₀ (by rw [hlen]; norm_num), hlen]
    have key : ∀ l : List ℝ, l ≠ [] → (∀ x ∈ l, (1e-6 : ℝ) < x) → 1e-6 * (l.length : ℝ) < l.sum := by
      intro l
      induction l with
      | nil => intro h; exact absurd rfl h
      | cons x l ih =>
        intro _ hx
        rw [List.length_cons, List.sum_cons]
        push_cast
        have h1 := hx x (by simp)
        by_cases hl : l = []
        · subst hl; simp; linarith
        · have := ih hl fun y hy => hx y (by simp [hy])
          linarith
    have := key _ (by intro h0; rw [h0] at hlen; simp at hlen) hall
    rw [hlen] at this
    exact this

theorem closures_lrEvents (cfg : TrainCfg) (qs : List (List ℝ)) (st : TrainState) :
    (closures cfg qs st).2.lrEvents = st.lrEvents := by
  induction qs generalizing st with
  | nil => rfl
  | cons q qs ih =>
    have h1 : (closure cfg q st).2.lrEvents = st.lrEvents := by
      unfold closure
      simp only
      split
      · rfl
      · split
        · rfl
        · split <;> rfl
    rw [closures]
    rcases hcl : closure cfg q st with ⟨e | l, st'⟩
    · rw [hcl] at h1; exact h1
    · rw [hcl] at h1
      rw [ih]; exact h1

theorem runEpochs_reduced {cfg : TrainCfg} (hc : cfg.coh = none) {opt : ℕ → OptStep} (hq : ∀ e, (opt e).queries ≠ []) (m e : ℕ)
    {st r : TrainState} {vs : List (Five Fl)} (hv : Spec.Recorded vs st.agg) (hz : ∀ v ∈ vs, v.coherence = fin 0)
    (hn : e ≤ vs.length) (h0 : 0 < e) (h : runEpochs cfg opt e m st = (.ok (), r)) (hl : m = 0 ∨ ¬ Fl.lt r.loss (fin cfg.prob.tol)) :
    ∃ new, Spec.Recorded (vs ++ new) r.agg ∧ (∀ v ∈ new, v.coherence = fin 0) ∧
      ((∀ v ∈ vs ++ new, Spec.Significant v) →
        r.lrEvents.map Prod.fst = st.lrEvents.map Prod.fst ++ (List.range' e m).filter fun k => k % 50 = 0) := by
  induction m generalizing e st vs with
  | zero =>
    simp only [runEpochs, Prod.mk.injEq, true_and] at h
    subst h
    exact ⟨[], by simpa using hv, by simp, by simp⟩
  | succ m ih =>
    rw [runEpochs] at h
    obtain ⟨new, h1, h2, h3⟩ := closures_rec hc (opt e).queries hv
    -- the epoch
    rcases hcl : closures cfg (opt e).queries st with ⟨err | u, st1⟩
    · have : runEpoch cfg e (opt e) st = (.error err, st1) := by unfold runEpoch; rw [hcl]
      rw [this] at h; simp at h
    rw [hcl] at h1 h3
    simp only at h1
    have hlen : new.length = (opt e).queries.length := h3 rfl
    have hpos : 0 < new.length := by rw [hlen]; exact List.length_pos_iff.2 (hq e)
    have hz' : ∀ v ∈ vs ++ new, v.coherence = fin 0 := by
      intro v hv'
      rcases List.mem_append.1 hv' with h' | h'
      · exact hz v h'
      · exact h2 v h'
    have hev : st1.lrEvents = st.lrEvents := closures_lrEvents cfg (opt e).queries st |> fun t => by rw [hcl] at t; exact t
    set st2 : TrainState := { st1 with ops := st1.ops.setVec cfg.prob.learnNu (opt e).final, epochLoss := st1.epochLoss ++ [st1.loss] }
      with hst2
    by_cases hlearn : cfg.prob.learnable = true
    swap
    · have : runEpoch cfg e (opt e) st = (.error .attributeError, st2) := by
        unfold runEpoch; rw [hcl]; simp only; rw [if_pos hlearn]
      rw [this] at h; simp at h
    by_cases hfin : st1.loss.IsFin
    swap
    · have : runEpoch cfg e (opt e) st = (.error .runtimeError, st2) := by
        unfold runEpoch; rw [hcl]; simp only; rw [if_neg (not_not.2 hlearn), if_pos hfin]
      rw [this] at h; simp at h
    by_cases htol : Fl.lt st1.loss (fin cfg.prob.tol)
    · have : runEpoch cfg e (opt e) st = (.ok true, st2) := by
        unfold runEpoch; rw [hcl]; simp only; rw [if_neg (not_not.2 hlearn), if_neg (not_not.2 hfin), if_pos htol]
      rw [this] at h
      simp only [Prod.mk.injEq, true_and] at h
      rw [← h] at hl
      exact absurd htol (hl.resolve_left (by omega))
    -- the loss after a run of zero epochs is that of this epoch
    have hloss : ∀ w : TrainState, w.loss = st1.loss → (∃ x, runEpochs cfg opt (e + 1) m w = (.ok x, r)) →
        m = 0 ∨ ¬ Fl.lt r.loss (fin cfg.prob.tol) := fun w _ _ => Or.inr (hl.resolve_left (by omega))
    have fin_step : ∀ w : TrainState, w.agg = st1.agg → runEpochs cfg opt (e + 1) m w = (.ok (), r) → w.loss = st1.loss →
        ((∀ v ∈ vs ++ new, Spec.Significant v) → w.lrEvents.map Prod.fst = st.lrEvents.map Prod.fst ++ if e % 50 = 0 then [e] else []) →
        ∃ new, Spec.Recorded (vs ++ new) r.agg ∧ (∀ v ∈ new, v.coherence = fin 0) ∧
          ((∀ v ∈ vs ++ new, Spec.Significant v) →
            r.lrEvents.map Prod.fst = st.lrEvents.map Prod.fst ++ (List.range' e (m + 1)).filter fun k => k % 50 = 0) := by
      intro w hw hrun hwl hwe
      obtain ⟨new', k1, k2, k3⟩ := ih (e + 1) (st := w) (vs := vs ++ new) (by rw [hw]; exact h1) hz'
        (by rw [List.length_append]; omega) (by omega) hrun (hloss w hwl ⟨_, hrun⟩)
      refine ⟨new ++ new', by rw [← List.append_assoc]; exact k1, ?_, ?_⟩
      · intro v hv'
        rcases List.mem_append.1 hv' with h' | h'
        · exact h2 v h'
        · exact k2 v h'
      · intro hsig
        rw [← List.append_assoc] at hsig
        rw [k3 hsig, hwe fun v hv' => hsig v (List.mem_append_left _ hv'), List.append_assoc, List.range'_succ]
        congr 1
        by_cases h50 : e % 50 = 0
        · rw [if_pos h50, List.filter_cons_of_pos (by simpa using h50)]; rfl
        · rw [if_neg h50, List.filter_cons_of_neg (by simpa using h50)]; rfl
    by_cases h50 : e % 50 = 0
    swap
    · have : runEpoch cfg e (opt e) st = (.ok false, st2) := by
        unfold runEpoch; rw [hcl]; simp only
        rw [if_neg (not_not.2 hlearn), if_neg (not_not.2 hfin), if_neg htol, if_neg h50]
      rw [this] at h
      refine fin_step st2 rfl h rfl fun _ => ?_
      rw [if_neg h50, hst2, hev]
      simp
    · rcases hsa : shouldAdjust st1.agg e 50 with err | adv
      · have : runEpoch cfg e (opt e) st = (.error err, st2) := by
          unfold runEpoch; rw [hcl]; simp only
          rw [if_neg (not_not.2 hlearn), if_neg (not_not.2 hfin), if_neg htol, if_pos h50]
          rw [hsa]
        rw [this] at h; simp at h
      · rcases hf : adv.factor with _ | f
        · have : runEpoch cfg e (opt e) st = (.ok false, st2) := by
            unfold runEpoch; rw [hcl]; simp only
            rw [if_neg (not_not.2 hlearn), if_neg (not_not.2 hfin), if_neg htol, if_pos h50]
            rw [hsa]; simp only [hf]
            rfl
          rw [this] at h
          refine fin_step st2 rfl h rfl fun hsig => ?_
          exfalso
          have he : 50 ≤ e := Nat.le_of_dvd h0 (Nat.dvd_of_mod_eq_zero h50)
          obtain ⟨r', f, hr', hf'⟩ := check_reduces h1 hsig hz' (by rw [List.length_append]; omega) he
          rw [hsa] at hr'
          rw [← Except.ok.inj hr', hf] at hf'
          cases hf'
        · have : runEpoch cfg e (opt e) st = (.ok false, { st2 with lrEvents := st2.lrEvents ++ [(e, f)] }) := by
            unfold runEpoch; rw [hcl]; simp only
            rw [if_neg (not_not.2 hlearn), if_neg (not_not.2 hfin), if_neg htol, if_pos h50]
            rw [hsa]; simp only [hf]
            rfl
          rw [this] at h
          refine fin_step { st2 with lrEvents := st2.lrEvents ++ [(e, f)] } rfl h rfl fun _ => ?_
          rw [if_pos h50]
          simp [hst2, hev]

/-- **C108** In every fit, with any optimiser, the reductions are by the factors 0.5, 0.3 and 0.7 at multiples of 50 epochs, at most one
each (so there is none in a fit of fewer than 50 epochs), and the rate is as in `C108_rate`. -/
theorem C108_run (cfg : TrainCfg) (opt : ℕ → OptStep) (s : OPS) (base : ℝ) :
    Spec.Reducing (calibrate cfg opt s).2.lrEvents ∧
    (∀ q ∈ (calibrate cfg opt s).2.lrEvents, 50 ∣ q.1 ∧ 50 ≤ q.1 ∧ q.1 ≤ cfg.prob.nepochs ∧ 0.3 ≤ q.2 ∧ q.2 ≤ 0.7) ∧
    ((calibrate cfg opt s).2.lrEvents.Pairwise fun a b => a.1 < b.1) ∧
    ∀ e ≤ cfg.prob.nepochs, rateAfter base cfg.prob.nepochs (calibrate cfg opt s).2.lrEvents e =
      base * Spec.anneal cfg.prob.nepochs e * Spec.reductions (calibrate cfg opt s).2.lrEvents e := by
  have key : (∀ q ∈ (calibrate cfg opt s).2.lrEvents, 50 ∣ q.1 ∧ 1 ≤ q.1 ∧ q.1 < 1 + cfg.prob.nepochs ∧
      (q.2 = 0.5 ∨ q.2 = 0.3 ∨ q.2 = 0.7)) ∧ (calibrate cfg opt s).2.lrEvents.Pairwise fun a b => a.1 < b.1 := by
    have hst : (calibrateStart cfg s).2.lrEvents = [] := by
      unfold calibrateStart
      simp only
      split
      · rfl
      · split
        · rfl
        · split <;> rfl
    unfold calibrate
    rcases hs : calibrateStart cfg s with ⟨e | u, st⟩
    · rw [hs] at hst
      simp only at hst
      simp only [hst]
      exact ⟨by simp, List.Pairwise.nil⟩
    · rw [hs] at hst
      simp only at hst
      obtain ⟨new, h1, h2, h3⟩ := (runEpochs_ghost cfg opt cfg.prob.nepochs 1 st).2
      rw [hst, List.nil_append] at h1
      simp only
      rcases hr : runEpochs cfg opt 1 cfg.prob.nepochs st with ⟨e | v, w⟩
      · rw [hr] at h1
        simp only at h1 ⊢
        rw [h1]
        exact ⟨h2, h3⟩
      · rw [hr] at h1
        simp only at h1 ⊢
        rw [h1]
        exact ⟨h2, h3⟩
  refine ⟨fun q hq => ?_, fun q hq => ?_, key.2, fun e he => C108_rate base he _⟩
  · rcases (key.1 q hq).2.2.2 with h | h | h <;> rw [h] <;> norm_num
  · obtain ⟨h1, h2, h3, h4⟩ := key.1 q hq
    refine ⟨h1, Nat.le_of_dvd (by omega) h1, by omega, ?_⟩
    rcases h4 with h | h | h <;> rw [h] <;> norm_num

/-- **C108** Without coherence data the rate is reduced at *every* multiple of 50 epochs, however well the fit progresses: the coherence
term on record is zero, so the misfit always counts as dominant.  (For every optimiser that evaluates the loss at least once per epoch and
every run that does not end below the tolerance, as long as the evaluated losses are finite and the misfits exceed `1e-6`.) -/
theorem C108_always_reduced (cfg : TrainCfg) (hc : cfg.coh = none) {opt : ℕ → OptStep} (hq : ∀ e, (opt e).queries ≠ []) {s : OPS}
    {p : Calibrated} {r : TrainState} (h : calibrate cfg opt s = (.ok p, r)) (hfin : ∀ x ∈ r.agg.total, x.IsFin)
    (hm : ∀ x ∈ r.agg.hist.mse, Fl.lt (fin 1e-6) x) (hl : ¬ Fl.lt r.loss (fin cfg.prob.tol)) :
    r.lrEvents.map Prod.fst = (List.range' 1 cfg.prob.nepochs).filter fun k => k % 50 = 0 := by
  unfold calibrate at h
  rcases hs : calibrateStart cfg s with ⟨e | u, st⟩
  · rw [hs] at h; simp at h
  rw [hs] at h
  simp only at h
  rcases hr : runEpochs cfg opt 1 cfg.prob.nepochs st with ⟨e | v, w⟩
  · rw [hr] at h; simp at h
  rw [hr] at h
  simp only [Prod.mk.injEq, Except.ok.injEq] at h
  obtain ⟨-, rfl⟩ := h
  -- the initial evaluation
  have hinit : ∃ v, Spec.Recorded [v] st.agg ∧ v.coherence = fin 0 := by
    unfold calibrateStart at hs
    simp only [hc] at hs
    rcases hf : OPS.forward cfg.k1s s with ⟨e | y, ops⟩
    · rw [hf] at hs; simp at hs
    rw [hf] at hs
    simp only at hs
    obtain ⟨new, h1, h2, h3⟩ := lossEval_rec (p := cfg.loss) (k1s := cfg.k1s) (zref := cfg.phys.zref)
      (a := ⟨y.take cfg.prob.nc.toNat, cfg.target, genTheta cfg ops, none⟩) rfl (vs := []) (s := LossState.init)
      ⟨rfl, rfl, rfl, rfl, rfl, rfl⟩
    rcases hl : lossEval cfg.loss cfg.k1s cfg.phys.zref ⟨y.take cfg.prob.nc.toNat, cfg.target, genTheta cfg ops, none⟩
      LossState.init with ⟨e | l, agg⟩
    · rw [hl] at hs; simp at hs
    rw [hl] at hs h1 h3
    obtain ⟨v, rfl⟩ := List.length_eq_one_iff.1 (h3 l rfl)
    simp only [Prod.mk.injEq] at hs
    rw [← hs.2]
    exact ⟨v, by simpa using h1, h2 v (by simp)⟩
  obtain ⟨v0, hv0, hz0⟩ := hinit
  obtain ⟨new, h1, -, h3⟩ := runEpochs_reduced hc hq cfg.prob.nepochs 1 hv0 (by simpa using hz0) (by simp) (by norm_num) hr
    (Or.inr hl)
  rw [h3 ?_, (start_same hs).2.2.2]
  · rfl
  · intro v hv
    refine ⟨hfin _ ?_, hm _ ?_⟩
    · rw [h1.total]; exact List.mem_map.2 ⟨v, hv, rfl⟩
    · rw [h1.mse]; exact List.mem_map.2 ⟨v, hv, rfl⟩

/-- Reductions in a fit of 120 epochs. -/
example : (List.range' 1 120).filter (fun k => k % 50 = 0) = [50, 100] := by decide

/-- An Adam optimiser exists for every number of parameters. -/
example (base : ℝ) (T N : ℕ) : ∃ O : GradOpt, O.IsAdam base T N ∧ O.Legal N :=
  ⟨⟨adamStep base T N⟩, fun _ _ _ _ => rfl, fun _ _ _ => by simp [adamStep]⟩

end
end Verif
