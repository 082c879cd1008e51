import Verif.Model.Autograd
import Verif.Props.ObjectiveHistory
import Verif.Props.Training

/-!
# What the gradients of a fit contain (C104)
-/

namespace Verif
open Fl Verif.Spec

noncomputable section

/-! ### The recorded loss and the loss -/

theorem recLifetime_diag (s : OPS) (k : K3) :
    OPS.recLifetime s s k = eddyLifetime s.hyp s.initApprox.ty (Real.exp s.logL) (Real.exp s.logT) k := by
  unfold OPS.recLifetime
  rcases hk : s.kind with _ | _ | _ | _ | net <;> simp only
  have : s.initApprox.ty = .mann := by simp [OPS.ty, OPS.initApprox, hk]
  rw [this]

/-- Apart from `MANN`, the recorded lifetime does not look at the constant copy. -/
theorem recLifetime_full {a : OPS} (h : a.kind ≠ .mann) (d : OPS) (k : K3) :
    OPS.recLifetime a d k = OPS.recLifetime a a k := by
  unfold OPS.recLifetime
  rcases hk : a.kind with _ | _ | _ | _ | net <;> simp only
  exact absurd hk h

theorem recForward_diag (k1s : List ℝ) (s : OPS) : (OPS.forward k1s s).1 = .ok (OPS.recForward k1s s s) := by
  rw [forward_eq]
  unfold OPS.recForward
  simp only [recLifetime_diag]
  rfl

theorem recForward_full {a : OPS} (h : a.kind ≠ .mann) (k1s : List ℝ) (d : OPS) :
    OPS.recForward k1s a d = OPS.recForward k1s a a := by
  unfold OPS.recForward
  simp only [recLifetime_full h d]

theorem forward_kind (k1s : List ℝ) (s : OPS) : (OPS.forward k1s s).2.kind = s.kind := (forward_same k1s s).1.kind.symm

theorem closureCoherence_kind (cfg : TrainCfg) (s : OPS) : (closureCoherence cfg s).2.kind = s.kind := by
  unfold closureCoherence
  rcases cfg.coh with _ | c
  · rfl
  · have := (compute_state cfg.phys c.freqs c.seps s).1.kind
    simp only
    rcases hm : computeModelCoherence cfg.phys c.freqs c.seps s with ⟨e | m, o⟩ <;> rw [hm] at this <;> exact this.symm

/-- The value of a closure evaluation is the recorded loss with both copies equal. -/
theorem closure_recLoss (cfg : TrainCfg) (θ : List ℝ) (st : TrainState) :
    (closure cfg θ st).1 = recLoss cfg (st.ops.setVec cfg.prob.learnNu θ) (st.ops.setVec cfg.prob.learnNu θ) := by
  unfold closure recLoss
  simp only
  have h1 := recForward_diag cfg.k1s (st.ops.setVec cfg.prob.learnNu θ)
  have hk := forward_kind cfg.k1s (st.ops.setVec cfg.prob.learnNu θ)
  rcases hf : OPS.forward cfg.k1s (st.ops.setVec cfg.prob.learnNu θ) with ⟨r, o⟩
  rw [hf] at h1 hk
  simp only at h1 hk
  subst h1
  simp only
  have hk2 := closureCoherence_kind cfg o
  rcases hc : closureCoherence cfg o with ⟨e | coh, o'⟩
  · rfl
  rw [hc] at hk2
  simp only at hk2 ⊢
  have ht : genTheta cfg o' = genTheta cfg (st.ops.setVec cfg.prob.learnNu θ) := by unfold genTheta; rw [hk2, hk]
  rw [ht]
  unfold lossEval
  rcases evalTerms cfg.loss cfg.k1s cfg.phys.zref _ with e | v <;> rfl

/-- The same configuration without coherence data. -/
def TrainCfg.noCoherence (cfg : TrainCfg) : TrainCfg := { cfg with coh := none }

theorem noCoherence_prob {cfg cfg' : TrainCfg} (h : cfg'.noCoherence = cfg.noCoherence) : cfg'.prob = cfg.prob := by
  have := congrArg TrainCfg.prob h
  exact this

/-- A successful evaluation with a finite value has a finite coherence term, which enters every recorded loss at that constant
copy as a constant summand. -/
theorem recLoss_split (cfg : TrainCfg) (d : OPS) {l : ℝ} (h : recLoss cfg d d = .ok (fin l)) :
    ∃ c : ℝ, ∀ a : OPS, (match recLoss cfg a d with | .ok x => x | .error _ => nan) =
      (match recLoss cfg.noCoherence a d with | .ok x => x | .error _ => nan) + fin c := by
  have key : ∀ a : OPS, (closureCoherence cfg.noCoherence (OPS.forward cfg.k1s d).2).1 = .ok none := fun _ => rfl
  unfold recLoss at h ⊢
  rcases hc : (closureCoherence cfg (OPS.forward cfg.k1s d).2).1 with e | coh
  · rw [hc] at h; simp at h
  rw [hc] at h
  simp only at h
  have hco : ∀ (y y' : List (List Fl)) (t t' : Theta), cohTerm cfg.loss ⟨y, cfg.target, t, coh⟩ =
      cohTerm cfg.loss ⟨y', cfg.target, t', coh⟩ := fun _ _ _ _ => rfl
  rcases hv : evalTerms cfg.loss cfg.k1s cfg.phys.zref
      ⟨(OPS.recForward cfg.k1s d d).take cfg.prob.nc.toNat, cfg.target, genTheta cfg d, coh⟩ with e | v
  · rw [hv] at h; simp at h
  rw [hv] at h
  simp only [Except.ok.injEq] at h
  obtain ⟨-, h2, -, -, -⟩ := evalTerms_ok.1 hv
  obtain ⟨c, hcv⟩ : ∃ c, v.coherence = fin c := by
    rcases v with ⟨v1, v2, v3, v4, v5⟩
    simp only at h
    cases v2 with
    | fin c => exact ⟨c, rfl⟩
    | nan => simp at h
    | pinf => cases v1 <;> cases v3 <;> cases v4 <;> cases v5 <;> simp at h
    | ninf => cases v1 <;> cases v3 <;> cases v4 <;> cases v5 <;> simp at h
  refine ⟨c, fun a => ?_⟩
  simp only [TrainCfg.noCoherence, closureCoherence]
  have e2 : cohTerm cfg.loss ⟨(OPS.recForward cfg.k1s a d).take cfg.prob.nc.toNat, cfg.target, genTheta cfg a, coh⟩ = .ok (fin c) := by
    rw [← hcv, ← h2]; rfl
  have e3 : cohTerm cfg.loss ⟨(OPS.recForward cfg.k1s a d).take cfg.prob.nc.toNat, cfg.target, genTheta cfg a, none⟩ = .ok (fin 0) := rfl
  have e4 : genTheta { cfg with coh := none } a = genTheta cfg a := rfl
  rw [e4]
  unfold evalTerms
  rw [e2, e3]
  simp only [bind, Except.bind, pure, Except.pure]
  rcases mseTerm (List.take cfg.prob.nc.toNat (OPS.recForward cfg.k1s a d)) cfg.target with e | m
  · simp
  simp only
  have p1 : ∀ x, pen1Term cfg.loss cfg.k1s cfg.phys.zref ⟨(OPS.recForward cfg.k1s a d).take cfg.prob.nc.toNat, cfg.target, genTheta cfg a, x⟩
    = pen1Term cfg.loss cfg.k1s cfg.phys.zref ⟨(OPS.recForward cfg.k1s a d).take cfg.prob.nc.toNat, cfg.target, genTheta cfg a, none⟩ := fun _ => rfl
  have p2 : ∀ x, pen2Term cfg.loss cfg.k1s cfg.phys.zref ⟨(OPS.recForward cfg.k1s a d).take cfg.prob.nc.toNat, cfg.target, genTheta cfg a, x⟩
    = pen2Term cfg.loss cfg.k1s cfg.phys.zref ⟨(OPS.recForward cfg.k1s a d).take cfg.prob.nc.toNat, cfg.target, genTheta cfg a, none⟩ := fun _ => rfl
  have p3 : ∀ x, regTerm cfg.loss ⟨(OPS.recForward cfg.k1s a d).take cfg.prob.nc.toNat, cfg.target, genTheta cfg a, x⟩
    = regTerm cfg.loss ⟨(OPS.recForward cfg.k1s a d).take cfg.prob.nc.toNat, cfg.target, genTheta cfg a, none⟩ := fun _ => rfl
  rw [p1 coh, p2 coh, p3 coh]
  rcases pen1Term cfg.loss cfg.k1s cfg.phys.zref _ with e | a1
  · simp
  rcases pen2Term cfg.loss cfg.k1s cfg.phys.zref _ with e | a2
  · simp
  rcases regTerm cfg.loss _ with e | a3
  · simp
  simp only
  have z : m + fin 0 = m := add_zero m
  rw [z, add_right_comm m (fin c) a1, add_right_comm (m + a1) (fin c) a2, add_right_comm (m + a1 + a2) (fin c) a3]

/-- **C104** At every point where the loss is finite, the gradient used for the step is the gradient of the loss without
coherence data, whatever the coherence data and their weight. -/
theorem C104_coherence_silent (cfg : TrainCfg) (D : GradRule) (st : TrainState) (θ : List ℝ) {l : ℝ}
    (h : (closure cfg θ st).1 = .ok (fin l)) :
    backward cfg D st.ops θ = backward cfg.noCoherence D st.ops θ := by
  rw [closure_recLoss] at h
  obtain ⟨c, hc⟩ := recLoss_split cfg _ h
  unfold backward
  have : recValue cfg st.ops θ = fun x => recValue cfg.noCoherence st.ops θ x + fin c := by
    funext x
    unfold recValue
    by_cases hl : x.length ≠ (st.ops.paramVec cfg.prob.learnNu).length
    · have hl' : x.length ≠ (st.ops.paramVec cfg.noCoherence.prob.learnNu).length := hl
      rw [if_pos hl, if_pos hl']; simp
    · have hl' : ¬ x.length ≠ (st.ops.paramVec cfg.noCoherence.prob.learnNu).length := hl
      rw [if_neg hl, if_neg hl']
      exact hc _
  rw [this, D.shift]

/-! ### Differentiation engines -/

open Classical in
/-- Exact partial derivatives (NaN where the function is not finite around the point or has no derivative). -/
def Spec.exactGradient : GradRule where
  grad f θ := (List.range θ.length).map fun i =>
    if (∀ᶠ t in nhds (θ.getD i 0), (f (θ.set i t)).IsFin) ∧
        DifferentiableAt ℝ (fun t => (f (θ.set i t)).toReal) (θ.getD i 0) then
      fin (deriv (fun t => (f (θ.set i t)).toReal) (θ.getD i 0)) else nan
  shift f c θ := by
    apply List.map_congr_left
    intro i _
    have e1 : ∀ t, (f (θ.set i t) + fin c).IsFin ↔ (f (θ.set i t)).IsFin := by
      intro t
      cases f (θ.set i t) <;> simp
    simp only [e1]
    by_cases h : ∀ᶠ t in nhds (θ.getD i 0), (f (θ.set i t)).IsFin
    · have e2 : (fun t => (f (θ.set i t) + fin c).toReal) =ᶠ[nhds (θ.getD i 0)] fun t => (f (θ.set i t)).toReal + c := by
        filter_upwards [h] with t ht
        rw [ht.eq]; rfl
      rw [e2.differentiableAt_iff, e2.deriv_eq, differentiableAt_add_const_iff, deriv_add_const]
    · rw [if_neg fun hh => h hh.1, if_neg fun hh => h hh.1]

/-! ### Training with a gradient-driven optimiser -/

theorem runEpochs_congr (cfg : TrainCfg) {opt opt' : ℕ → OptStep} (n e : ℕ) (st : TrainState)
    (h : ∀ i, e ≤ i → opt i = opt' i) : runEpochs cfg opt e n st = runEpochs cfg opt' e n st := by
  induction n generalizing e st with
  | zero => rfl
  | succ n ih =>
    rw [runEpochs, runEpochs, h e le_rfl]
    rcases runEpoch cfg e (opt' e) st with ⟨_ | b, st'⟩
    · rfl
    · cases b
      · exact ih (e + 1) st' fun i hi => h i (by omega)
      · rfl

/-- An optimiser never changes the number of parameters. -/
def GradOpt.Legal (O : GradOpt) (n : ℕ) : Prop := ∀ e l h, (O.step e l h).length = n

theorem epochsG_instance {cfg : TrainCfg} (D : GradRule) {O : GradOpt} {N : ℕ} (hO : O.Legal N) (n e : ℕ)
    (hist : List (List ℝ × List Fl)) (st : TrainState) (hc : cfg.coh = none ∨ st.ops.cohGrid ≠ none)
    (hN : N = (st.ops.paramVec cfg.prob.learnNu).length) :
    ∃ opt : ℕ → OptStep, (∀ e, (opt e).final.length = N ∧ ∀ θ ∈ (opt e).queries, θ.length = N) ∧
      runEpochsG cfg D O e n hist st = runEpochs cfg opt e n st := by
  induction n generalizing e hist st with
  | zero =>
    refine ⟨fun e => O.optStep cfg D e hist st, fun e => ⟨hO _ _ _, ?_⟩, rfl⟩
    simp [GradOpt.optStep, hN]
  | succ n ih =>
    have hl : (O.optStep cfg D e hist st).final.length = N ∧ ∀ θ ∈ (O.optStep cfg D e hist st).queries, θ.length = N :=
      ⟨hO _ _ _, by simp [GradOpt.optStep, hN]⟩
    have h1 := archG_epoch rfl e (o := O.optStep cfg D e hist st) hc (hN ▸ hl)
    rcases he : runEpoch cfg e (O.optStep cfg D e hist st) st with ⟨err | b, st'⟩
    · refine ⟨fun _ => O.optStep cfg D e hist st, fun _ => hl, ?_⟩
      rw [runEpochsG, runEpochs, he]
    · rw [he] at h1
      simp only at h1
      cases b with
      | true =>
        refine ⟨fun _ => O.optStep cfg D e hist st, fun _ => hl, ?_⟩
        rw [runEpochsG, runEpochs, he]
      | false =>
        obtain ⟨opt, ho, hr⟩ := ih (e + 1) (hist ++ [(st.ops.paramVec cfg.prob.learnNu,
          backward cfg D st.ops (st.ops.paramVec cfg.prob.learnNu))]) st' (by rw [h1.coh]; exact hc)
          (by rw [hN, h1.arch.length])
        refine ⟨fun i => if i = e then O.optStep cfg D e hist st else opt i, fun i => ?_, ?_⟩
        · by_cases hi : i = e
          · simp only [hi, if_true]; exact hl
          · simp only [hi, if_false]; exact ho i
        · rw [runEpochsG, runEpochs]
          simp only [if_true, he]
          rw [hr]
          refine runEpochs_congr cfg n (e + 1) st' fun i hi => ?_
          rw [if_neg (by omega)]

/-- **C104** Training with a gradient-driven optimiser is an instance of training: everything proved about `calibrate` for an
arbitrary optimiser applies to it. -/
theorem C104_instance (cfg : TrainCfg) (D : GradRule) {O : GradOpt} (s : OPS)
    (hO : O.Legal (s.paramVec cfg.prob.learnNu).length) :
    ∃ opt : ℕ → OptStep, (∀ e, (opt e).final.length = (s.paramVec cfg.prob.learnNu).length ∧
      ∀ θ ∈ (opt e).queries, θ.length = (s.paramVec cfg.prob.learnNu).length) ∧
      calibrateG cfg D O s = calibrate cfg opt s := by
  have ha := arch_start cfg.prob.learnNu cfg s
  rcases hs : calibrateStart cfg s with ⟨e | u, st⟩
  · refine ⟨fun _ => ⟨[], s.paramVec cfg.prob.learnNu⟩, by simp, ?_⟩
    unfold calibrateG calibrate
    rw [hs]
  · rw [hs] at ha
    obtain ⟨opt, ho, hr⟩ := epochsG_instance (cfg := cfg) D hO cfg.prob.nepochs 1 [] st
      ((start_grid hs).imp id fun h => by rw [h]; simp) ha.length.symm
    refine ⟨opt, ho, ?_⟩
    unfold calibrateG calibrate
    rw [hs]
    simp only [hr]
    rcases runEpochs cfg opt 1 cfg.prob.nepochs st with ⟨e | v, w⟩ <;> rfl

/-- A step with one evaluation: the evaluation succeeded with a finite value. -/
theorem runEpoch_single {cfg : TrainCfg} {e : ℕ} {θ f : List ℝ} {st st' : TrainState} {b : Bool}
    (h : runEpoch cfg e ⟨[θ], f⟩ st = (.ok b, st')) :
    (∃ l : ℝ, (closure cfg θ st).1 = .ok (fin l)) ∧
      st'.ops = ((closure cfg θ st).2.ops.setVec cfg.prob.learnNu f) := by
  unfold runEpoch closures closures at h
  rcases hcl : closure cfg θ st with ⟨err | l, st1⟩
  · rw [hcl] at h; simp at h
  have hloss : st1.loss = l := by
    unfold closure at hcl
    simp only at hcl
    split at hcl
    · simp at hcl
    · split at hcl
      · simp at hcl
      · split at hcl
        · simp at hcl
        · simp only [Prod.mk.injEq, Except.ok.injEq] at hcl
          rw [← hcl.2, ← hcl.1]
  rw [hcl] at h
  simp only at h ⊢
  by_cases h1 : cfg.prob.learnable = true
  swap
  · rw [if_pos h1] at h; simp at h
  rw [if_neg (not_not.2 h1)] at h
  by_cases h2 : st1.loss.IsFin
  swap
  · rw [if_pos h2] at h; simp at h
  rw [if_neg (not_not.2 h2)] at h
  obtain ⟨x, hx⟩ := isFin_iff.1 h2
  refine ⟨⟨x, by rw [← hloss, hx]⟩, ?_⟩
  by_cases h3 : Fl.lt st1.loss (fin cfg.prob.tol)
  · rw [if_pos h3] at h
    simp only [Prod.mk.injEq] at h
    rw [← h.2]
  rw [if_neg h3] at h
  by_cases h4 : e % 50 = 0
  swap
  · rw [if_neg h4] at h
    simp only [Prod.mk.injEq] at h
    rw [← h.2]
  rw [if_pos h4] at h
  split at h
  · simp at h
  · split at h <;>
    · simp only [Prod.mk.injEq] at h
      rw [← h.2]

theorem genTheta_congr {cfg : TrainCfg} {a b : OPS} (h : a.kind = b.kind) : genTheta cfg a = genTheta cfg b := by
  unfold genTheta; rw [h]

/-- The gradient without coherence data depends on the object only through its architecture and its mesh. -/
theorem backward_congr (cfg : TrainCfg) (D : GradRule) {s t : OPS} (h : Arch cfg.prob.learnNu s t) (hg : s.grid = t.grid)
    {θ : List ℝ} (hθ : θ.length = (t.paramVec cfg.prob.learnNu).length) :
    backward cfg.noCoherence D s θ = backward cfg.noCoherence D t θ := by
  unfold backward
  congr 1
  funext x
  unfold recValue
  have hl : (s.paramVec cfg.noCoherence.prob.learnNu).length = (t.paramVec cfg.noCoherence.prob.learnNu).length := h.length
  rw [hl]
  by_cases hx : x.length ≠ (t.paramVec cfg.noCoherence.prob.learnNu).length
  · rw [if_pos hx, if_pos hx]
  rw [if_neg hx, if_neg hx]
  have hx' : x.length = (s.paramVec cfg.prob.learnNu).length := by
    rw [h.length]; exact not_not.1 hx
  have e1 := h.setVec_params hx'
  have e2 := h.setVec_params (v := θ) (by rw [h.length]; exact hθ)
  have k1 := h.setVec_kind hx'
  have f1 : OPS.recForward cfg.k1s (s.setVec cfg.prob.learnNu x) (s.setVec cfg.prob.learnNu θ) =
      OPS.recForward cfg.k1s (t.setVec cfg.prob.learnNu x) (t.setVec cfg.prob.learnNu θ) := by
    unfold OPS.recForward OPS.recLifetime
    have a1 := congrArg OPSParams.logL e1
    have a2 := congrArg OPSParams.logT e1
    have a3 := congrArg OPSParams.logM e1
    have a4 := congrArg OPSParams.ty e1
    have a5 := congrArg OPSParams.sp e1
    have a6 := congrArg OPSParams.hyp e1
    have a7 := congrArg OPSParams.logL e2
    simp only [OPS.params] at a1 a2 a3 a4 a5 a6 a7
    rw [a1, a2, a3, a4, a5, a6, a7, k1]
    have a8 : (s.setVec cfg.prob.learnNu x).grid = (t.setVec cfg.prob.learnNu x).grid := hg
    rw [a8]
  unfold recLoss
  simp only [TrainCfg.noCoherence, closureCoherence]
  rw [f1, genTheta_congr k1]

/-- Two successful runs under configurations that differ only in the coherence data. -/
theorem runs_agree {cfg cfg' : TrainCfg} (hcc : cfg'.noCoherence = cfg.noCoherence) (D : GradRule) {O : GradOpt} {s : OPS}
    (hO : O.Legal (s.paramVec cfg.prob.learnNu).length) (m e : ℕ) (hist : List (List ℝ × List Fl)) {st st' r r' : TrainState}
    (ha : Arch cfg.prob.learnNu st.ops s) (hg : st.ops.grid = s.grid) (hc : cfg.coh = none ∨ st.ops.cohGrid ≠ none)
    (ha' : Arch cfg.prob.learnNu st'.ops s) (hg' : st'.ops.grid = s.grid) (hc' : cfg'.coh = none ∨ st'.ops.cohGrid ≠ none)
    (hp : st.ops.paramVec cfg.prob.learnNu = st'.ops.paramVec cfg.prob.learnNu) (hlr : st.lrEvents = st'.lrEvents)
    (hlen : r.epochLoss.length + st'.epochLoss.length = r'.epochLoss.length + st.epochLoss.length)
    (hev : r.lrEvents = r'.lrEvents)
    (h : runEpochsG cfg D O e m hist st = (.ok (), r)) (h' : runEpochsG cfg' D O e m hist st' = (.ok (), r')) :
    r.ops.paramVec cfg.prob.learnNu = r'.ops.paramVec cfg.prob.learnNu := by
  have hprob : cfg'.prob = cfg.prob := noCoherence_prob hcc
  induction m generalizing e hist st st' with
  | zero =>
    simp only [runEpochsG, Prod.mk.injEq, true_and] at h h'
    rw [← h, ← h']; exact hp
  | succ m ih =>
    set N := (s.paramVec cfg.prob.learnNu).length with hN
    set θ := st.ops.paramVec cfg.prob.learnNu with hθ
    have hθl : θ.length = N := by rw [hθ, ha.length]
    have hq : O.optStep cfg D e hist st = ⟨[θ], O.step e st.lrEvents (hist ++ [(θ, backward cfg D st.ops θ)])⟩ := rfl
    have hq' : O.optStep cfg' D e hist st' = ⟨[θ], O.step e st'.lrEvents (hist ++ [(θ, backward cfg' D st'.ops θ)])⟩ := by
      unfold GradOpt.optStep
      rw [hprob, ← hp]
    -- both runs in terms of general training
    obtain ⟨opt, ho, hr⟩ := epochsG_instance (cfg := cfg) D hO (m + 1) e hist st hc ha.length.symm
    obtain ⟨opt', ho', hr'⟩ := epochsG_instance (cfg := cfg') D (N := N) hO (m + 1) e hist st' hc' (by
      rw [hprob, ha'.length])
    rw [runEpochsG] at h h'
    simp only [hprob, ← hp] at h'
    have hl : (O.optStep cfg D e hist st).final.length = N ∧ ∀ x ∈ (O.optStep cfg D e hist st).queries, x.length = N :=
      ⟨hO _ _ _, by simp [GradOpt.optStep, ha.length, hN]⟩
    have hl' : (O.optStep cfg' D e hist st').final.length = N ∧ ∀ x ∈ (O.optStep cfg' D e hist st').queries, x.length = N :=
      ⟨hO _ _ _, by rw [hq']; simp [hθl]⟩
    have g1 := archG_epoch (cfg := cfg) rfl e (o := O.optStep cfg D e hist st) hc (by rw [ha.length]; exact hl)
    have g1' := archG_epoch (cfg := cfg') (ln := cfg.prob.learnNu) (by rw [hprob]) e (o := O.optStep cfg' D e hist st') hc'
      (by rw [ha'.length]; exact hl')
    have t1 := runEpoch_ghost cfg e (O.optStep cfg D e hist st) st
    have t1' := runEpoch_ghost cfg' e (O.optStep cfg' D e hist st') st'
    rcases he : runEpoch cfg e (O.optStep cfg D e hist st) st with ⟨err | b, u⟩
    · rw [he] at h; simp at h
    rcases he' : runEpoch cfg' e (O.optStep cfg' D e hist st') st' with ⟨err | b', u'⟩
    · rw [he'] at h'; simp at h'
    rw [he] at h g1 t1
    rw [he'] at h' g1' t1'
    simp only at g1 g1'
    rw [hq] at he
    rw [hq'] at he'
    obtain ⟨⟨l, hcl⟩, hu⟩ := runEpoch_single he
    obtain ⟨⟨l', hcl'⟩, hu'⟩ := runEpoch_single he'
    -- the gradients agree
    have b1 := C104_coherence_silent cfg D st θ hcl
    have b1' := C104_coherence_silent cfg' D st' θ hcl'
    have hgrad : backward cfg D st.ops θ = backward cfg' D st'.ops θ := by
      rw [b1, b1', hcc, backward_congr cfg D ha hg hθl, backward_congr cfg D ha' hg' hθl]
    have c1 := arch_closure (cfg := cfg) rfl (θ := θ) (st := st) (by rw [ha.length])
    have c1' := arch_closure (cfg := cfg') (ln := cfg.prob.learnNu) (by rw [hprob]) (θ := θ) (st := st')
      (by rw [ha'.length]; exact hθl)
    have hpu : u.ops.paramVec cfg.prob.learnNu = u'.ops.paramVec cfg.prob.learnNu := by
      rw [hu, hu', hprob, paramVec_setVec _ _ _ (by rw [hO, c1.length, ha.length]),
        paramVec_setVec _ _ _ (by rw [hO, c1'.length, ha'.length]), hlr, hgrad]
    have len1 : u.epochLoss.length = st.epochLoss.length + 1 := by
      rcases t1.1 with t | ⟨-, err, t⟩
      · rw [t]; simp
      · simp at t
    have len1' : u'.epochLoss.length = st'.epochLoss.length + 1 := by
      rcases t1'.1 with t | ⟨-, err, t⟩
      · rw [t]; simp
      · simp at t
    -- remaining epochs record at least one loss each
    have more : ∀ (c : TrainCfg) (hi : List (List ℝ × List Fl)) (v w : TrainState), c.prob = cfg.prob →
        (c.coh = none ∨ v.ops.cohGrid ≠ none) → Arch cfg.prob.learnNu v.ops s → v.ops.grid = s.grid →
        runEpochsG c D O (e + 1) m hi v = (.ok (), w) →
        (m = 0 ∧ w = v ∨ v.epochLoss.length < w.epochLoss.length) ∧
        ∃ new, w.lrEvents = v.lrEvents ++ new ∧ ∀ q ∈ new, e + 1 ≤ q.1 := by
      intro c hi v w hpc hcoh hav hgv hw
      obtain ⟨op, -, hop⟩ := epochsG_instance (cfg := c) D (N := N) hO m (e + 1) hi v hcoh (by rw [hpc, hav.length])
      rw [hop] at hw
      have gh := runEpochs_ghost c op m (e + 1) v
      obtain ⟨new, h1, -, -, -, -, h5, h6⟩ := runEpochs_ok hw
      rw [hw] at gh
      refine ⟨?_, ?_⟩
      · rcases Nat.eq_zero_or_pos m with rfl | hm
        · exact Or.inl ⟨rfl, h6 rfl⟩
        · right
          rw [h1]
          have := (h5 hm).2
          cases new with
          | nil => simp at this
          | cons x xs => simp
      · obtain ⟨new, hn, hq, -⟩ := gh.2
        exact ⟨new, hn, fun q hq' => (hq q hq').2.1⟩
    have hau := g1.arch.trans ha
    have hau' := g1'.arch.trans ha'
    have hgu := g1.grid.trans hg
    have hgu' := g1'.grid.trans hg'
    have hcu : cfg.coh = none ∨ u.ops.cohGrid ≠ none := by rw [g1.coh]; exact hc
    have hcu' : cfg'.coh = none ∨ u'.ops.cohGrid ≠ none := by rw [g1'.coh]; exact hc'
    cases b with
    | true =>
      simp only [Prod.mk.injEq, true_and] at h
      cases b' with
      | true =>
        simp only [Prod.mk.injEq, true_and] at h'
        rw [← h, ← h']; exact hpu
      | false =>
        simp only at h'
        rcases (more cfg' _ u' r' hprob hcu' hau' hgu' h').1 with ⟨-, hr0⟩ | hlt
        · rw [← h, hr0]; exact hpu
        · rw [← h] at hlen; omega
    | false =>
      simp only at h
      cases b' with
      | true =>
        simp only [Prod.mk.injEq, true_and] at h'
        rcases (more cfg _ u r rfl hcu hau hgu h).1 with ⟨-, hr0⟩ | hlt
        · rw [hr0, ← h']; exact hpu
        · rw [← h'] at hlen; omega
      | false =>
        simp only at h'
        obtain ⟨-, n1, hn1, hq1⟩ := more cfg _ u r rfl hcu hau hgu h
        obtain ⟨-, n2, hn2, hq2⟩ := more cfg' _ u' r' hprob hcu' hau' hgu' h'
        have hlru : u.lrEvents = u'.lrEvents := by
          rw [hn1, hn2] at hev
          rcases t1.2 with t | ⟨f, -, -, t⟩ <;> rcases t1'.2 with t' | ⟨f', -, -, t'⟩ <;> simp only at t t'
          · rw [t, t', hlr]
          · rw [t, t', hlr, List.append_assoc, List.append_cancel_left_eq] at hev
            have := hq1 (e, f') (by rw [hev]; simp)
            simp at this
          · rw [t, t', hlr, List.append_assoc, List.append_cancel_left_eq] at hev
            have := hq2 (e, f) (by rw [← hev]; simp)
            simp at this
          · rw [t, t', hlr, List.append_assoc, List.append_assoc, List.append_cancel_left_eq] at hev
            simp only [List.cons_append, List.nil_append, List.cons.injEq] at hev
            rw [t, t', hlr, hev.1]
        rw [← hgrad] at h'
        exact ih (e + 1) _ hau hgu hcu hau' hgu' hcu' hpu hlru (by omega) h h'

theorem start_same {cfg : TrainCfg} {s : OPS} {st : TrainState} (h : calibrateStart cfg s = (.ok (), st)) :
    st.ops.grid = s.grid ∧ (∀ ln, st.ops.paramVec ln = s.paramVec ln) ∧ st.epochLoss = [] ∧ st.lrEvents = [] := by
  have key : ∀ (o : OPS), s.Same o → o.logL = s.logL ∧ o.logT = s.logT ∧ o.logM = s.logM →
      (match OPS.forward cfg.k1s o with
        | (.error e, ops) => ((.error e : Except PyErr Unit), (⟨ops, LossState.init, fin 0, 0, [], []⟩ : TrainState))
        | (.ok y, ops) =>
          match lossEval cfg.loss cfg.k1s cfg.phys.zref
              ⟨y.take cfg.prob.nc.toNat, cfg.target, genTheta cfg ops, none⟩ LossState.init with
          | (.error e, agg) => (.error e, ⟨ops, agg, fin 0, 0, [], []⟩)
          | (.ok l, agg) => (.ok (), ⟨ops, agg, l, 0, [], []⟩)) = (.ok (), st) →
      st.ops.grid = s.grid ∧ (∀ ln, st.ops.paramVec ln = s.paramVec ln) ∧ st.epochLoss = [] ∧ st.lrEvents = [] := by
    intro o hs hl h
    have h1 := forward_same cfg.k1s o
    rcases hf : OPS.forward cfg.k1s o with ⟨e | y, o'⟩
    · rw [hf] at h; simp at h
    rw [hf] at h h1
    simp only at h h1
    split at h
    · simp at h
    · simp only [Prod.mk.injEq, true_and] at h
      rw [← h]
      have hs' := OPS.Same.trans (b := o) hs h1.1
      refine ⟨hs'.grid.symm, fun ln => ?_, rfl, rfl⟩
      unfold OPS.paramVec
      simp only
      rw [← hs'.sp, ← hs'.kind, h1.2.1, h1.2.2.1, h1.2.2.2.1, hl.1, hl.2.1, hl.2.2]
  unfold calibrateStart at h
  rcases hc : cfg.coh with _ | c
  · simp only [hc] at h
    exact key s (.refl s) ⟨rfl, rfl, rfl⟩ h
  · simp only [hc] at h
    have h1 := (compute_state cfg.phys c.freqs c.seps s).1
    have h2 := (coherence_same ((c.freqs.filter fun f => decide (1e-6 < f)).map
          fun f => cfg.phys.factor * f / cfg.phys.Uref) c.seps s).2
    rcases hm : computeModelCoherence cfg.phys c.freqs c.seps s with ⟨e | m, o⟩
    · rw [hm] at h; simp at h
    rw [hm] at h h1
    simp only at h h1
    refine key o h1 ?_ h
    classical
    unfold computeModelCoherence at hm
    simp only at hm
    rcases hsc : OPS.SpectralCoherence ((c.freqs.filter fun f => decide (1e-6 < f)).map
          fun f => cfg.phys.factor * f / cfg.phys.Uref) c.seps s with ⟨e | mm, oo⟩
    · rw [hsc] at hm; simp at hm
    rw [hsc] at hm h2
    simp only [Prod.mk.injEq, Except.ok.injEq] at hm
    rw [← hm.2]
    exact ⟨h2.1, h2.2.1, h2.2.2.1⟩

/-- **C104** With a gradient-driven optimiser (Adam) the coherence data do not influence where the parameters go: two fits from
the same object that differ only in the coherence data (other data, or none at all), run the same number of epochs and see the same
learning-rate reductions return the same calibrated parameters. -/
theorem C104_adam (cfg cfg' : TrainCfg) (hcc : cfg'.noCoherence = cfg.noCoherence) (D : GradRule) {O : GradOpt} {s : OPS}
    (hO : O.Legal (s.paramVec cfg.prob.learnNu).length) {p p' : Calibrated} {r r' : TrainState}
    (h : calibrateG cfg D O s = (.ok p, r)) (h' : calibrateG cfg' D O s = (.ok p', r'))
    (hlen : r.epochLoss.length = r'.epochLoss.length) (hev : r.lrEvents = r'.lrEvents) :
    r.ops.paramVec cfg.prob.learnNu = r'.ops.paramVec cfg.prob.learnNu ∧ p = p' := by
  have hprob : cfg'.prob = cfg.prob := noCoherence_prob hcc
  have ha := arch_start cfg.prob.learnNu cfg s
  have ha' := arch_start cfg.prob.learnNu cfg' s
  unfold calibrateG at h h'
  rcases hs : calibrateStart cfg s with ⟨e | u, st⟩
  · rw [hs] at h; simp at h
  rcases hs' : calibrateStart cfg' s with ⟨e | u, st'⟩
  · rw [hs'] at h'; simp at h'
  rw [hs] at h ha
  rw [hs'] at h' ha'
  simp only [hprob] at h h' ha ha'
  rcases hr : runEpochsG cfg D O 1 cfg.prob.nepochs [] st with ⟨e | v, w⟩
  · rw [hr] at h; simp at h
  rcases hr' : runEpochsG cfg' D O 1 cfg.prob.nepochs [] st' with ⟨e | v', w'⟩
  · rw [hr'] at h'; simp at h'
  rw [hr] at h
  rw [hr'] at h'
  simp only [Prod.mk.injEq, Except.ok.injEq] at h h'
  obtain ⟨h1, rfl⟩ := h
  obtain ⟨h1', rfl⟩ := h'
  have s1 := start_same hs
  have s1' := start_same hs'
  have key := runs_agree hcc D hO cfg.prob.nepochs 1 [] ha s1.1 ((start_grid hs).imp id fun h => by rw [h]; simp)
    ha' s1'.1 ((start_grid hs').imp id fun h => by rw [h]; simp) (by rw [s1.2.1, s1'.2.1]) (by rw [s1.2.2.2, s1'.2.2.2])
    (by rw [s1.2.2.1, s1'.2.2.1]; simpa using hlen) hev hr hr'
  exact ⟨key, by rw [← h1, ← h1', key]⟩

/-- **C104** In particular for fits of fewer than 50 epochs that run to their last epoch. -/
theorem C104_adam_short (cfg cfg' : TrainCfg) (hcc : cfg'.noCoherence = cfg.noCoherence) (D : GradRule) {O : GradOpt} {s : OPS}
    (hO : O.Legal (s.paramVec cfg.prob.learnNu).length) {p p' : Calibrated} {r r' : TrainState}
    (h : calibrateG cfg D O s = (.ok p, r)) (h' : calibrateG cfg' D O s = (.ok p', r'))
    (hn : cfg.prob.nepochs < 50) (hlen : r.epochLoss.length = r'.epochLoss.length) : p = p' := by
  have hprob : cfg'.prob = cfg.prob := noCoherence_prob hcc
  have ev : ∀ (c : TrainCfg) (q : Calibrated) (w : TrainState), c.prob = cfg.prob → calibrateG c D O s = (.ok q, w) →
      w.lrEvents = [] := by
    intro c q w hpc hw
    have ha := arch_start c.prob.learnNu c s
    unfold calibrateG at hw
    rcases hs : calibrateStart c s with ⟨e | u, st⟩
    · rw [hs] at hw; simp at hw
    rw [hs] at hw ha
    simp only at hw ha
    obtain ⟨opt, -, hop⟩ := epochsG_instance (cfg := c) D (N := (s.paramVec c.prob.learnNu).length) (O := O)
      (by rw [hpc]; exact hO) c.prob.nepochs 1 [] st
      ((start_grid hs).imp id fun h => by rw [h]; simp) ha.length.symm
    rw [hop] at hw
    have gh := (runEpochs_ghost c opt c.prob.nepochs 1 st).2
    obtain ⟨new, h1, h2, -⟩ := gh
    have : w = (runEpochs c opt 1 c.prob.nepochs st).2 := by
      rcases hr : runEpochs c opt 1 c.prob.nepochs st with ⟨e | v, w'⟩
      · rw [hr] at hw; simp at hw
      · rw [hr] at hw; simp at hw; exact hw.2.symm
    rw [this, h1, (start_same hs).2.2.2, List.nil_append]
    rw [List.eq_nil_iff_forall_not_mem]
    intro q hq
    obtain ⟨⟨k, hk⟩, h3, h4, -⟩ := h2 q hq
    rw [hpc] at h4
    omega
  exact (C104_adam cfg cfg' hcc D hO h h' hlen (by rw [ev cfg p r rfl h, ev cfg' p' r' hprob h'])).2

end
end Verif
