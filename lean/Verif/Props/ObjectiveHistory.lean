import Verif.Props.ObjectiveContinuity

/-!
# The objective is one function of the parameters; data produced by the model (C103)
-/

namespace Verif
open Fl Verif.Spec

noncomputable section

/-- Same architecture, same grids. -/
structure ArchG (ln : Bool) (s t : OPS) : Prop where
  arch : Arch ln s t
  grid : s.grid = t.grid
  coh : s.cohGrid = t.cohGrid

theorem ArchG.trans {ln : Bool} {a b c : OPS} (h : ArchG ln a b) (h' : ArchG ln b c) : ArchG ln a c :=
  ⟨h.arch.trans h'.arch, h.grid.trans h'.grid, h.coh.trans h'.coh⟩

theorem ArchG.refl (ln : Bool) (a : OPS) : ArchG ln a a := ⟨.of_same ln (.refl _), rfl, rfl⟩

theorem archG_forward (ln : Bool) (k1s : List ℝ) (s : OPS) : ArchG ln (OPS.forward k1s s).2 s :=
  ⟨.of_same ln (forward_same k1s s).1, (forward_same k1s s).1.grid.symm, (forward_same k1s s).2.2.2.2⟩

theorem compute_state (phys : PhysCfg) (f r : List ℝ) (s : OPS) :
    s.Same (computeModelCoherence phys f r s).2 ∧ (computeModelCoherence phys f r s).2.cohGrid = some s.cohGridUsed := by
  classical
  unfold computeModelCoherence
  simp only
  have := coherence_same ((f.filter fun f => decide (1e-6 < f)).map fun f => phys.factor * f / phys.Uref) r s
  split <;> rename_i heq <;> rw [heq] at this <;> exact ⟨this.1, this.2.2.2.2⟩

theorem archG_coherence (ln : Bool) (phys : PhysCfg) (f r : List ℝ) (s : OPS) (h : s.cohGrid ≠ none) :
    ArchG ln (computeModelCoherence phys f r s).2 s := by
  obtain ⟨h1, h2⟩ := compute_state phys f r s
  refine ⟨.of_same ln h1, h1.grid.symm, h2.trans ?_⟩
  obtain ⟨g, hg⟩ := Option.ne_none_iff_exists'.1 h
  simp [OPS.cohGridUsed, hg]

theorem archG_closure {cfg : TrainCfg} {ln : Bool} (hln : cfg.prob.learnNu = ln) {θ : List ℝ} {st : TrainState}
    (hc : cfg.coh = none ∨ st.ops.cohGrid ≠ none) (h : θ.length = (st.ops.paramVec ln).length) :
    ArchG ln (closure cfg θ st).2.ops st.ops := by
  have h1 : ArchG ln (st.ops.setVec cfg.prob.learnNu θ) st.ops := by
    rw [hln]; exact ⟨Arch.setVec st.ops θ h, rfl, rfl⟩
  have h2 := (archG_forward ln cfg.k1s (st.ops.setVec cfg.prob.learnNu θ)).trans h1
  unfold closure
  simp only
  rcases heq : OPS.forward cfg.k1s (st.ops.setVec cfg.prob.learnNu θ) with ⟨e | y, ops⟩
  · rw [heq] at h2; exact h2
  · rw [heq] at h2
    simp only
    have h3 : ArchG ln (closureCoherence cfg ops).2 st.ops := by
      unfold closureCoherence
      rcases hcc : cfg.coh with _ | c
      · exact h2
      · have hne : ops.cohGrid ≠ none := by
          rw [h2.coh]
          exact hc.resolve_left (by simp [hcc])
        have := archG_coherence ln cfg.phys c.freqs c.seps ops hne
        simp only
        rcases hm : computeModelCoherence cfg.phys c.freqs c.seps ops with ⟨e | m, ops'⟩ <;> rw [hm] at this <;>
          exact this.trans h2
    rcases hm : closureCoherence cfg ops with ⟨e | coh, ops'⟩ <;> rw [hm] at h3
    · exact h3
    · simp only
      split <;> exact h3

theorem archG_closures {cfg : TrainCfg} {ln : Bool} (hln : cfg.prob.learnNu = ln) (θs : List (List ℝ)) {st : TrainState}
    (hc : cfg.coh = none ∨ st.ops.cohGrid ≠ none) (h : ∀ θ ∈ θs, θ.length = (st.ops.paramVec ln).length) :
    ArchG ln (closures cfg θs st).2.ops st.ops := by
  induction θs generalizing st with
  | nil => exact .refl ln _
  | cons θ θs ih =>
    have h1 := archG_closure hln hc (h θ (by simp))
    unfold closures
    rcases heq : closure cfg θ st with ⟨e | y, st'⟩ <;> rw [heq] at h1
    · exact h1
    · exact (ih (by rw [h1.coh]; exact hc) fun x hx => by rw [h1.arch.length]; exact h x (by simp [hx])).trans h1

theorem archG_epoch {cfg : TrainCfg} {ln : Bool} (hln : cfg.prob.learnNu = ln) (e : ℕ) {o : OptStep} {st : TrainState}
    (hc : cfg.coh = none ∨ st.ops.cohGrid ≠ none)
    (h : o.final.length = (st.ops.paramVec ln).length ∧ ∀ θ ∈ o.queries, θ.length = (st.ops.paramVec ln).length) :
    ArchG ln (runEpoch cfg e o st).2.ops st.ops := by
  have h1 := archG_closures hln o.queries hc h.2
  unfold runEpoch
  rcases heq : closures cfg o.queries st with ⟨e' | y, st'⟩ <;> rw [heq] at h1
  · exact h1
  · have h2 : ArchG ln (st'.ops.setVec cfg.prob.learnNu o.final) st.ops := by
      rw [hln]
      exact ArchG.trans ⟨Arch.setVec _ _ (by rw [h.1, h1.arch.length]), rfl, rfl⟩ h1
    simp only
    split_ifs <;> try exact h2
    split
    · exact h2
    · split <;> exact h2

theorem archG_epochs {cfg : TrainCfg} {ln : Bool} (hln : cfg.prob.learnNu = ln) {opt : ℕ → OptStep} {n : ℕ}
    (h : ∀ e, (opt e).final.length = n ∧ ∀ θ ∈ (opt e).queries, θ.length = n) (m e : ℕ) {st : TrainState}
    (hc : cfg.coh = none ∨ st.ops.cohGrid ≠ none)
    (hn : n = (st.ops.paramVec ln).length) : ArchG ln (runEpochs cfg opt e m st).2.ops st.ops := by
  induction m generalizing e st with
  | zero => exact .refl ln _
  | succ m ih =>
    have h1 := archG_epoch hln e (o := opt e) hc (hn ▸ h e)
    rw [runEpochs]
    rcases heq : runEpoch cfg e (opt e) st with ⟨_ | b, st'⟩ <;> rw [heq] at h1
    · exact h1
    · cases b
      · exact (ih (e + 1) (by rw [h1.coh]; exact hc) (by rw [hn, h1.arch.length])).trans h1
      · exact h1

/-- Values of the loss do not depend on the loss history. -/
theorem lossEval_fst (p : LossParams) (k1s : List ℝ) (zref : ℝ) (a : EvalArgs) (s s' : LossState) :
    (lossEval p k1s zref a s).1 = (lossEval p k1s zref a s').1 := by
  unfold lossEval
  split <;> rfl

/-- The value of a closure evaluation depends on the object only through its architecture and grids. -/
theorem closure_congr {cfg : TrainCfg} {ln : Bool} (hln : cfg.prob.learnNu = ln) {θ : List ℝ} {st st' : TrainState}
    (h : ArchG ln st.ops st'.ops) (hc : cfg.coh = none ∨ st'.ops.cohGrid ≠ none)
    (hθ : θ.length = (st'.ops.paramVec ln).length) : (closure cfg θ st).1 = (closure cfg θ st').1 := by
  have hp : (st.ops.setVec ln θ).params = (st'.ops.setVec ln θ).params :=
    h.arch.setVec_params (by rw [h.arch.length]; exact hθ)
  have hk : (st.ops.setVec ln θ).kind = (st'.ops.setVec ln θ).kind := h.arch.setVec_kind (by rw [h.arch.length]; exact hθ)
  unfold closure
  rw [hln]
  simp only
  have e1 := forward_eq cfg.k1s (st.ops.setVec ln θ)
  have e2 := forward_eq cfg.k1s (st'.ops.setVec ln θ)
  have g1 : (st.ops.setVec ln θ).grid = (st'.ops.setVec ln θ).grid := h.grid
  rw [hp, g1, ← e2] at e1
  have s1 := forward_same cfg.k1s (st.ops.setVec ln θ)
  have s2 := forward_same cfg.k1s (st'.ops.setVec ln θ)
  rcases f1 : OPS.forward cfg.k1s (st.ops.setVec ln θ) with ⟨r, o⟩
  rcases f2 : OPS.forward cfg.k1s (st'.ops.setVec ln θ) with ⟨r', o'⟩
  rw [f1] at s1
  rw [f2] at s2
  rw [f1, f2] at e1
  simp only at e1 s1 s2
  subst e1
  have hop : o.params = o'.params := by
    rw [← params_congr s1.1 s1.2.1.symm s1.2.2.1.symm s1.2.2.2.1.symm, hp,
      params_congr s2.1 s2.2.1.symm s2.2.2.1.symm s2.2.2.2.1.symm]
  have hok : o.kind = o'.kind := by rw [← s1.1.kind, hk, s2.1.kind]
  have hoc : o.cohGrid = o'.cohGrid := by
    rw [s1.2.2.2.2, s2.2.2.2.2]; exact h.coh
  have hoc' : o'.cohGrid = st'.ops.cohGrid := s2.2.2.2.2
  rcases r with e | y
  · rfl
  simp only
  have hcc : (closureCoherence cfg o).1 = (closureCoherence cfg o').1 ∧
      (closureCoherence cfg o).2.kind = (closureCoherence cfg o').2.kind := by
    unfold closureCoherence
    rcases hcfg : cfg.coh with _ | c
    · exact ⟨rfl, hok⟩
    · have hne : o'.cohGrid ≠ none := by rw [hoc']; exact hc.resolve_left (by simp [hcfg])
      have hne1 : o.cohGrid ≠ none := by rw [hoc]; exact hne
      have hu : o.cohGridUsed = o'.cohGridUsed := by
        obtain ⟨g, hg⟩ := Option.ne_none_iff_exists'.1 hne
        unfold OPS.cohGridUsed
        rw [hoc, hg]; rfl
      have c1 := (C45_fill cfg.phys c.freqs c.seps o).1
      have c2 := (C45_fill cfg.phys c.freqs c.seps o').1
      rw [hop, hu, ← c2] at c1
      have k1 := (compute_state cfg.phys c.freqs c.seps o).1.kind
      have k2 := (compute_state cfg.phys c.freqs c.seps o').1.kind
      simp only
      rcases m1 : computeModelCoherence cfg.phys c.freqs c.seps o with ⟨q, w⟩
      rcases m2 : computeModelCoherence cfg.phys c.freqs c.seps o' with ⟨q', w'⟩
      rw [m1, m2] at c1
      rw [m1] at k1
      rw [m2] at k2
      simp only at c1 k1 k2
      subst c1
      have : w.kind = w'.kind := by rw [← k1, hok, k2]
      rcases q with e | m
      · exact ⟨rfl, this⟩
      · exact ⟨rfl, this⟩
  rcases m1 : closureCoherence cfg o with ⟨q, w⟩
  rcases m2 : closureCoherence cfg o' with ⟨q', w'⟩
  rw [m1, m2] at hcc
  simp only at hcc
  obtain ⟨rfl, hw⟩ := hcc
  rcases q with e | coh
  · rfl
  simp only
  have ht : genTheta cfg w = genTheta cfg w' := by unfold genTheta; rw [hw]
  rw [ht]
  have hl := lossEval_fst cfg.loss cfg.k1s cfg.phys.zref ⟨y.take cfg.prob.nc.toNat, cfg.target, genTheta cfg w', coh⟩ st.agg st'.agg
  rcases l1 : lossEval cfg.loss cfg.k1s cfg.phys.zref ⟨y.take cfg.prob.nc.toNat, cfg.target, genTheta cfg w', coh⟩ st.agg with ⟨a, b⟩
  rcases l2 : lossEval cfg.loss cfg.k1s cfg.phys.zref ⟨y.take cfg.prob.nc.toNat, cfg.target, genTheta cfg w', coh⟩ st'.agg with ⟨a', b'⟩
  rw [l1, l2] at hl
  simp only at hl
  subst hl
  cases a <;> rfl

/-- The state in which training starts has its coherence grid fixed, if coherence data are used. -/
theorem start_grid {cfg : TrainCfg} {s : OPS} {st : TrainState} (h : calibrateStart cfg s = (.ok (), st)) :
    cfg.coh = none ∨ st.ops.cohGrid = some s.cohGridUsed := by
  rcases hc : cfg.coh with _ | c
  · exact Or.inl rfl
  right
  unfold calibrateStart at h
  simp only [hc] at h
  have h1 := compute_state cfg.phys c.freqs c.seps s
  rcases hm : computeModelCoherence cfg.phys c.freqs c.seps s with ⟨e | m, o⟩
  · rw [hm] at h; simp at h
  · rw [hm] at h h1
    simp only at h h1
    have h2 := (forward_same cfg.k1s o).2.2.2.2
    rcases hf : OPS.forward cfg.k1s o with ⟨e | y, o'⟩
    · rw [hf] at h; simp at h
    · rw [hf] at h h2
      simp only at h h2
      split at h
      · simp at h
      · simp only [Prod.mk.injEq, true_and] at h
        rw [← h]
        exact h2.trans h1.2

/-- **C103** During a training run the optimiser sees one and the same function: whatever points were evaluated before, in
whatever epochs and with whatever outcome (including exceptions), evaluating the closure at a full parameter vector returns what
it would have returned at the start of the run. -/
theorem C103_one_function (cfg : TrainCfg) {s : OPS} {st : TrainState} (h : calibrateStart cfg s = (.ok (), st))
    {opt : ℕ → OptStep} (hopt : ∀ e, (opt e).final.length = (s.paramVec cfg.prob.learnNu).length ∧
      ∀ θ ∈ (opt e).queries, θ.length = (s.paramVec cfg.prob.learnNu).length)
    (m : ℕ) (qs : List (List ℝ)) (hq : ∀ q ∈ qs, q.length = (s.paramVec cfg.prob.learnNu).length) (θ : List ℝ)
    (hθ : θ.length = (s.paramVec cfg.prob.learnNu).length) :
    (closure cfg θ (closures cfg qs (runEpochs cfg opt 1 m st).2).2).1 = (closure cfg θ st).1 := by
  have ha := arch_start cfg.prob.learnNu cfg s
  rw [h] at ha
  have hl := ha.length
  have hc : cfg.coh = none ∨ st.ops.cohGrid ≠ none := (start_grid h).imp id fun h => by rw [h]; simp
  have h1 := archG_epochs rfl hopt m 1 hc (by rw [hl])
  have h2 := archG_closures (cfg := cfg) rfl qs (st := (runEpochs cfg opt 1 m st).2) (by rw [h1.coh]; exact hc)
    (by rw [h1.arch.length, hl]; exact hq)
  exact closure_congr rfl (h2.trans h1) hc (by rw [hl]; exact hθ)

/-- **C103** The loss on record after a successful sequence of evaluations is the value of that function at the last point
evaluated. -/
theorem C103_recorded_loss (cfg : TrainCfg) {st st' : TrainState} (hc : cfg.coh = none ∨ st.ops.cohGrid ≠ none)
    (qs : List (List ℝ)) (q : List ℝ) (hq : ∀ x ∈ qs ++ [q], x.length = (st.ops.paramVec cfg.prob.learnNu).length)
    (h : closures cfg (qs ++ [q]) st = (.ok (), st')) : (closure cfg q st).1 = .ok st'.loss := by
  have key : ∀ (qs : List (List ℝ)) (st : TrainState), closures cfg (qs ++ [q]) st = (.ok (), st') →
      (closure cfg q (closures cfg qs st).2).1 = .ok st'.loss := by
    intro qs
    induction qs with
    | nil =>
      intro st h
      simp only [List.nil_append, closures] at h ⊢
      rcases hcl : closure cfg q st with ⟨e | l, st1⟩
      · rw [hcl] at h; simp at h
      · rw [hcl] at h
        simp only [Prod.mk.injEq, true_and] at h
        subst h
        have : st1.loss = l := by
          unfold closure at hcl
          simp only at hcl
          split at hcl
          · simp at hcl
          · split at hcl
            · simp at hcl
            · split at hcl
              · simp at hcl
              · simp only [Prod.mk.injEq, Except.ok.injEq] at hcl
                rw [← hcl.2, ← hcl.1]
        simp [this]
    | cons x qs ih =>
      intro st h
      simp only [List.cons_append, closures] at h ⊢
      rcases hcl : closure cfg x st with ⟨e | l, st1⟩
      · rw [hcl] at h; simp at h
      · rw [hcl] at h
        exact ih st1 h
  rw [← key qs st h]
  have h1 := archG_closures (cfg := cfg) rfl qs (st := st) hc fun x hx => hq x (by simp [hx])
  exact (closure_congr rfl h1 hc (hq q (by simp))).symm

/-! ### Data produced by the model itself -/

theorem mean2_sq_nonneg (m n : ℕ) (f : ℕ → ℕ → ℝ) : 0 ≤ Spec.mean2 m n fun i j => f i j ^ 2 := by
  unfold Spec.mean2
  exact div_nonneg (Finset.sum_nonneg fun i _ => Finset.sum_nonneg fun j _ => sq_nonneg _) (by positivity)

theorem mean2_sq_zero {m n : ℕ} (hm : 0 < m) (hn : 0 < n) (f : ℕ → ℕ → ℝ) :
    (Spec.mean2 m n fun i j => f i j ^ 2) = 0 ↔ ∀ i < m, ∀ j < n, f i j = 0 := by
  unfold Spec.mean2
  have : ((m : ℝ) * n) ≠ 0 := by positivity
  rw [div_eq_zero_iff, or_iff_left this,
    Finset.sum_eq_zero_iff_of_nonneg fun i _ => Finset.sum_nonneg fun j _ => sq_nonneg _]
  simp only [Finset.mem_range]
  refine forall₂_congr fun i _ => ?_
  rw [Finset.sum_eq_zero_iff_of_nonneg fun j _ => sq_nonneg _]
  simp only [Finset.mem_range, sq_eq_zero_iff]

theorem tableMisfit_zero {n : ℕ} (hn : 0 < n) {y t : ℕ → ℕ → ℝ} (hy : ∀ i < 3, ∀ j < n, 0 < y i j)
    (ht : ∀ i < 3, ∀ j < n, 0 < t i j) : Spec.tableMisfit 3 n y t = 0 ↔ ∀ i < 3, ∀ j < n, y i j = t i j := by
  unfold Spec.tableMisfit
  rw [mean2_sq_zero (by norm_num) hn]
  refine forall₂_congr fun i hi => forall₂_congr fun j hj => ?_
  rw [sub_eq_zero, abs_of_pos (hy i hi j hj), abs_of_pos (ht i hi j hj)]
  exact ⟨fun h => Real.log_injOn_pos (hy i hi j hj) (ht i hi j hj) h, fun h => by rw [h]⟩

theorem coherenceMisfit_nonneg (a b : ℕ) (M D : Fin 3 → ℕ → ℕ → ℝ) : 0 ≤ Spec.coherenceMisfit a b M D := by
  unfold Spec.coherenceMisfit
  exact div_nonneg (Finset.sum_nonneg fun c _ => mean2_sq_nonneg a b fun i j => M c i j - D c i j) (by norm_num)

theorem coherenceMisfit_zero {a b : ℕ} (ha : 0 < a) (hb : 0 < b) (M D : Fin 3 → ℕ → ℕ → ℝ) :
    Spec.coherenceMisfit a b M D = 0 ↔ ∀ c, ∀ i < a, ∀ j < b, M c i j = D c i j := by
  unfold Spec.coherenceMisfit
  rw [div_eq_zero_iff, or_iff_left (by norm_num),
    Finset.sum_eq_zero_iff_of_nonneg fun c _ => mean2_sq_nonneg a b fun i j => M c i j - D c i j]
  simp only [Finset.mem_univ, true_imp_iff]
  refine forall_congr' fun c => ?_
  rw [mean2_sq_zero ha hb]
  simp only [sub_eq_zero]

/-- **C103** Self-consistency.  If the data are the model's own predictions (spectra, and coherences if they are used) at some
sound parameters and the penalties are off, then the loss there is exactly 0, the loss is nowhere negative, and it is 0 at
other sound parameters exactly if those predict the same spectra (and, with a positive coherence weight, the same coherences). -/
theorem C103_self_consistent (cfg : TrainCfg) {n : ℕ} {k : ℕ → ℝ} (st : TrainState) {θ₀ : List ℝ}
    (h0 : (st.ops.setVec cfg.prob.learnNu θ₀).Sound)
    (hF : Spec.FitSetting cfg n k fun i j =>
      Spec.cell (OPS.forward cfg.k1s (st.ops.setVec cfg.prob.learnNu θ₀)).1 i j) {a b : ℕ} {r f : ℕ → ℝ}
    (hg : st.ops.grid.Pairwise (· < ·)) (h2 : 2 ≤ st.ops.grid.length)
    (hcoh : Spec.cohSetting cfg st.ops.cohGrid a b r f fun c i j => Spec.fitCoherence cfg.phys (st.ops.cohGrid.getD [])
      (st.ops.setVec cfg.prob.learnNu θ₀).params (![Comp3.u, Comp3.v, Comp3.w] c) (r i) (f j))
    (hp1 : cfg.loss.alphaPen1 ≤ 0) (hp2 : cfg.loss.alphaPen2 ≤ 0) (hb : cfg.loss.betaReg ≤ 0) :
    (closure cfg θ₀ st).1 = .ok (fin 0) ∧
    ∀ θ, (st.ops.setVec cfg.prob.learnNu θ).Sound → ∃ x, (closure cfg θ st).1 = .ok (fin x) ∧ 0 ≤ x ∧
      (x = 0 ↔ (∀ i < 3, ∀ j < n, Spec.cell (OPS.forward cfg.k1s (st.ops.setVec cfg.prob.learnNu θ)).1 i j =
          Spec.cell (OPS.forward cfg.k1s (st.ops.setVec cfg.prob.learnNu θ₀)).1 i j) ∧
        (cfg.coh ≠ none → 0 < cfg.loss.gammaCoherence → ∀ c : Comp3, ∀ i < a, ∀ j < b,
          Spec.fitCoherence cfg.phys (st.ops.cohGrid.getD []) (st.ops.setVec cfg.prob.learnNu θ).params c (r i) (f j) =
          Spec.fitCoherence cfg.phys (st.ops.cohGrid.getD []) (st.ops.setVec cfg.prob.learnNu θ₀).params c (r i) (f j))) := by
  have hn : 0 < n := by have := hF.n3; omega
  have main : ∀ θ, (st.ops.setVec cfg.prob.learnNu θ).Sound → ∃ x, (closure cfg θ st).1 = .ok (fin x) ∧ 0 ≤ x ∧
      (x = 0 ↔ (∀ i < 3, ∀ j < n, Spec.cell (OPS.forward cfg.k1s (st.ops.setVec cfg.prob.learnNu θ)).1 i j =
          Spec.cell (OPS.forward cfg.k1s (st.ops.setVec cfg.prob.learnNu θ₀)).1 i j) ∧
        (cfg.coh ≠ none → 0 < cfg.loss.gammaCoherence → ∀ c : Comp3, ∀ i < a, ∀ j < b,
          Spec.fitCoherence cfg.phys (st.ops.cohGrid.getD []) (st.ops.setVec cfg.prob.learnNu θ).params c (r i) (f j) =
          Spec.fitCoherence cfg.phys (st.ops.cohGrid.getD []) (st.ops.setVec cfg.prob.learnNu θ₀).params c (r i) (f j))) := by
    intro θ hθ
    refine ⟨_, closure_objective cfg hF st hg h2 hcoh θ hθ.finite (fun h => absurd h (not_lt.2 hb)), ?_⟩
    unfold Spec.objective
    simp only [max_eq_right hp1, max_eq_right hp2, max_eq_right hb, zero_mul, zero_div, add_zero]
    have hm0 : 0 ≤ Spec.tableMisfit 3 n (fun i j => Spec.cell (OPS.forward ((List.range n).map k)
        (st.ops.setVec cfg.prob.learnNu θ)).1 i j) (fun i j =>
        Spec.cell (OPS.forward cfg.k1s (st.ops.setVec cfg.prob.learnNu θ₀)).1 i j) := mean2_sq_nonneg _ _ _
    have hm := tableMisfit_zero (y := fun i j => Spec.cell (OPS.forward ((List.range n).map k)
        (st.ops.setVec cfg.prob.learnNu θ)).1 i j) (t := fun i j =>
        Spec.cell (OPS.forward cfg.k1s (st.ops.setVec cfg.prob.learnNu θ₀)).1 i j) hn
      (fun i hi j hj => forward_cell_pos (st.ops.setVec cfg.prob.learnNu θ) hθ.finite hg h2 hF.asc.1 hi hj)
      (fun i hi j hj => by
        rw [hF.k1s]
        exact forward_cell_pos (st.ops.setVec cfg.prob.learnNu θ₀) h0.finite hg h2 hF.asc.1 hi hj)
    rw [hF.k1s] at hm hm0 ⊢
    rcases hcoh with hc | ⟨g', hg', hs', h2', ha, hb', hf, hU, hc⟩
    · rw [hc]
      simp only [Option.isSome_none, Bool.false_eq_true, if_false, add_zero]
      exact ⟨hm0, hm.trans ⟨fun h => ⟨h, fun h => absurd rfl h⟩, fun h => h.1⟩⟩
    · have hsome : cfg.coh.isSome = true := by rw [hc]; rfl
      have hne : cfg.coh ≠ none := by rw [hc]; simp
      rw [hsome]
      simp only [if_true]
      have eg : (st.ops.setVec cfg.prob.learnNu θ).cohGrid = st.ops.cohGrid := rfl
      simp only [eg]
      have hcm0 := coherenceMisfit_nonneg a b (fun c i j => Spec.fitCoherence cfg.phys (st.ops.cohGrid.getD [])
        (st.ops.setVec cfg.prob.learnNu θ).params (![Comp3.u, Comp3.v, Comp3.w] c) (r i) (f j))
        (fun c i j => Spec.fitCoherence cfg.phys (st.ops.cohGrid.getD [])
          (st.ops.setVec cfg.prob.learnNu θ₀).params (![Comp3.u, Comp3.v, Comp3.w] c) (r i) (f j))
      have hcm := coherenceMisfit_zero ha hb' (fun c i j => Spec.fitCoherence cfg.phys (st.ops.cohGrid.getD [])
        (st.ops.setVec cfg.prob.learnNu θ).params (![Comp3.u, Comp3.v, Comp3.w] c) (r i) (f j))
        (fun c i j => Spec.fitCoherence cfg.phys (st.ops.cohGrid.getD [])
          (st.ops.setVec cfg.prob.learnNu θ₀).params (![Comp3.u, Comp3.v, Comp3.w] c) (r i) (f j))
      have hw : 0 ≤ max cfg.loss.gammaCoherence 0 := le_max_right _ _
      refine ⟨add_nonneg hm0 (mul_nonneg hw hcm0), ?_⟩
      rw [add_eq_zero_iff_of_nonneg hm0 (mul_nonneg hw hcm0), hm, mul_eq_zero, hcm]
      refine and_congr_right fun _ => ⟨?_, ?_⟩
      · rintro (h | h) - hpos c i hi j hj
        · rw [max_eq_left hpos.le] at h
          exact absurd h hpos.ne'
        · cases c
          · exact h 0 i hi j hj
          · exact h 1 i hi j hj
          · exact h 2 i hi j hj
      · intro h
        by_cases hpos : 0 < cfg.loss.gammaCoherence
        · exact Or.inr fun c i hi j hj => h hne hpos _ i hi j hj
        · exact Or.inl (max_eq_right (not_lt.1 hpos))
  refine ⟨?_, main⟩
  obtain ⟨x, hx, -, hz⟩ := main θ₀ h0
  rw [hx, hz.2 ⟨fun _ _ _ _ => rfl, fun _ _ _ _ _ _ _ => rfl⟩]

/-! ### With coherence data the function depends on the initial length scale -/

theorem start_ok (cfg : TrainCfg) {n : ℕ} {k : ℕ → ℝ} {t : ℕ → ℕ → ℝ} (hF : Spec.FitSetting cfg n k t) (s : OPS)
    (hp : s.params.LifetimeFinite) (hg : s.grid.Pairwise (· < ·)) (h2 : 2 ≤ s.grid.length)
    (hp1 : cfg.loss.alphaPen1 ≤ 0) (hp2 : cfg.loss.alphaPen2 ≤ 0) (hb : cfg.loss.betaReg ≤ 0) :
    ∃ st, calibrateStart cfg s = (.ok (), st) ∧ st.ops.grid = s.grid := by
  have key : ∀ o : OPS, o.params = s.params → o.grid = s.grid → ∀ coh,
      ∃ y agg l, OPS.forward cfg.k1s o = (.ok y, (OPS.forward cfg.k1s o).2) ∧
        lossEval cfg.loss cfg.k1s cfg.phys.zref ⟨y.take cfg.prob.nc.toNat, cfg.target, genTheta cfg coh, none⟩
          LossState.init = (.ok l, agg) := by
    intro o ho hgo coh
    obtain ⟨y, hy, hy3⟩ := forward_take_table o (by rw [ho]; exact hp) n hF.asc.1
    have hnc : cfg.prob.nc.toNat = 3 := by rw [hF.nc]; rfl
    have e1 : mseTerm (y.take cfg.prob.nc.toNat) cfg.target = .ok (fin (Spec.tableMisfit 3 n (fun i j =>
        Spec.cell (OPS.forward ((List.range n).map k) o).1 i j) t)) := by
      rw [hnc, hy3, hF.target]
      exact mseTerm_table (by norm_num) (by have := hF.n3; omega)
        (fun i hi j hj => (forward_cell_pos o (by rw [ho]; exact hp) (by rw [hgo]; exact hg) (by rw [hgo]; exact h2)
          hF.asc.1 hi hj).ne') hF.t0
    have hev : evalTerms cfg.loss cfg.k1s cfg.phys.zref ⟨y.take cfg.prob.nc.toNat, cfg.target, genTheta cfg coh, none⟩ =
        .ok ⟨fin (Spec.tableMisfit 3 n (fun i j => Spec.cell (OPS.forward ((List.range n).map k) o).1 i j) t),
          fin 0, fin 0, fin 0, fin 0⟩ := by
      refine evalTerms_ok.2 ⟨e1, rfl, ?_, ?_, ?_⟩
      · simp [pen1Term, not_lt.2 hp1]
      · simp [pen2Term, not_lt.2 hp2]
      · unfold regTerm
        simp only [if_neg (not_lt.2 hb)]
        cases genTheta cfg coh <;> rfl
    refine ⟨y, _, _, ?_, by unfold lossEval; rw [hev]⟩
    rw [hF.k1s]
    exact Prod.ext hy rfl
  unfold calibrateStart
  simp only
  rcases hc : cfg.coh with _ | c
  · obtain ⟨y, agg, l, hf, hl⟩ := key s rfl rfl (OPS.forward cfg.k1s s).2
    simp only
    rw [hf]
    simp only
    rw [hl]
    exact ⟨_, rfl, (forward_same cfg.k1s s).1.grid.symm⟩
  · have h45 := (C45_fill cfg.phys c.freqs c.seps s).1
    have hcs := compute_state cfg.phys c.freqs c.seps s
    have hlog : (computeModelCoherence cfg.phys c.freqs c.seps s).2.params = s.params := by
      classical
      have h3 := coherence_same ((c.freqs.filter fun f => decide (1e-6 < f)).map fun f =>
        cfg.phys.factor * f / cfg.phys.Uref) c.seps s
      have h4 := (params_congr h3.1 h3.2.1.symm h3.2.2.1.symm h3.2.2.2.1.symm).symm
      unfold computeModelCoherence
      simp only
      split <;> rename_i heq <;> rw [heq] at h4 <;> exact h4
    rcases hm : computeModelCoherence cfg.phys c.freqs c.seps s with ⟨q, o⟩
    rw [hm] at h45 hcs hlog
    simp only at h45 hcs hlog
    subst h45
    simp only [hm]
    obtain ⟨y, agg, l, hf, hl⟩ := key o hlog hcs.1.grid.symm (OPS.forward cfg.k1s o).2
    rw [hf]
    simp only
    rw [hl]
    exact ⟨_, rfl, (forward_same cfg.k1s o).1.grid.symm.trans hcs.1.grid.symm⟩

/-- **C103** But the function itself depends on where training starts: with coherence data the integration grid of the coherence
is fixed from the length scale at the start.  For every object with constant eddy lifetime and no coherence grid there are a
configuration, a second initial length scale and a parameter vector at which two runs that differ in nothing but the initial length
scale assign different losses. -/
theorem C103_initial_length (s : OPS) (hs : s.cohGrid = none) (hk : s.kind = .const) (hg : s.grid.Pairwise (· < ·))
    (h2 : 2 ≤ s.grid.length) :
    ∃ (cfg : TrainCfg) (b : ℝ) (θ : List ℝ) (st st' : TrainState),
      θ.length = (s.paramVec cfg.prob.learnNu).length ∧
      calibrateStart cfg { s with logL := 0 } = (.ok (), st) ∧ calibrateStart cfg { s with logL := b } = (.ok (), st') ∧
      (closure cfg θ st).1 ≠ (closure cfg θ st').1 := by
  obtain ⟨b, m, r, hne⟩ := C23_disproof { s with logL := 0 } hs rfl hk
  set tgt : OPS := { s with logL := b, logT := 0, logM := m } with htgt
  have hsound : ∀ o : OPS, o.kind = .const → o.params.LifetimeFinite := fun o h => by
    have : o.Sound := by unfold OPS.Sound; rw [h]; trivial
    exact this.finite
  have hA : (runCalls [.coherence [1] [r], .setScales b 0 m] { s with logL := 0 }).cohGridUsed = cohFallbackGrid (Real.exp 0) :=
    C23_grid_frozen { s with logL := 0 } hs [1] [r] [.setScales b 0 m]
  have hB : (runCalls [.setScales b 0 m] ({ s with logL := 0 } : OPS)).cohGridUsed = cohFallbackGrid (Real.exp b) := by
    simp [runCalls, OPSCall.run, OPS.cohGridUsed, hs]
  have sA := runCalls_same [.coherence [1] [r], .setScales b 0 m] { s with logL := 0 }
  have pB : (runCalls [.setScales b 0 m] ({ s with logL := 0 } : OPS)).params = tgt.params := rfl
  have pA : (runCalls [.coherence [1] [r], .setScales b 0 m] { s with logL := 0 }).params = tgt.params := by
    have hsame : tgt.Same (runCalls [.coherence [1] [r], .setScales b 0 m] { s with logL := 0 }) :=
      OPS.Same.trans (b := { s with logL := 0 }) ⟨rfl, rfl, rfl, rfl, rfl, rfl, initApprox_congr rfl rfl rfl rfl rfl⟩ sA
    exact (params_congr hsame rfl rfl rfl).symm
  rw [coherence_eq, coherence_eq, hA, hB, pA, pB] at hne
  set GA := cohFallbackGrid (Real.exp 0) with hGA
  set GB := cohFallbackGrid (Real.exp b) with hGB
  obtain ⟨c, hc⟩ : ∃ c, cohEntry tgt.params GA GA c 1 r ≠ cohEntry tgt.params GB GB c 1 r := by
    by_contra hcon
    push Not at hcon
    exact hne (by simp [hcon])
  have gA := C22_grids (Real.exp_pos 0)
  have gB := C22_grids (Real.exp_pos b)
  let phys : PhysCfg := ⟨1, 1, 1, 1, 1, 1, 1⟩
  have vA := cohEntry_value phys tgt (hsound tgt hk) gA.1 (by rw [gA.2.1]; norm_num) one_pos one_pos c r 1
  have vB := cohEntry_value phys tgt (hsound tgt hk) gB.1 (by rw [gB.2.1]; norm_num) one_pos one_pos c r 1
  rw [if_pos (by norm_num)] at vA vB
  have e1 : phys.factor * 1 / phys.Uref = 1 := by norm_num [phys]
  rw [e1] at vA vB
  rw [vA, vB] at hc
  have hc' : Spec.fitCoherence phys GA tgt.params c r 1 ≠ Spec.fitCoherence phys GB tgt.params c r 1 := fun h => hc (by rw [h])
  let D : Fin 3 → ℕ → ℕ → ℝ := fun c _ _ => Spec.fitCoherence phys GA tgt.params (![Comp3.u, Comp3.v, Comp3.w] c) r 1
  let cfg : TrainCfg := ⟨⟨3, 1e-3, 1, false, .const, false, true, 4, 17 / 6⟩, phys, ⟨0, 0, 0, 1⟩,
    (List.range 3).map fun j : ℕ => (j : ℝ) + 1, Spec.table 3 3 fun _ _ => fin 1,
    some ⟨(List.range 1).map fun _ => 1, (List.range 1).map fun _ => r, Spec.table 1 1 fun i j => fin (D 0 i j),
      Spec.table 1 1 fun i j => fin (D 1 i j), Spec.table 1 1 fun i j => fin (D 2 i j)⟩⟩
  have hF : Spec.FitSetting cfg 3 (fun j => (j : ℝ) + 1) fun _ _ => 1 :=
    ⟨rfl, le_rfl, ⟨fun j _ => by positivity, fun j _ => by push_cast; linarith⟩, rfl, rfl, fun _ _ _ _ => one_ne_zero, one_ne_zero⟩
  obtain ⟨st, hst, hgst⟩ := start_ok cfg hF { s with logL := 0 } (hsound _ hk) hg h2 le_rfl le_rfl le_rfl
  obtain ⟨st', hst', hgst'⟩ := start_ok cfg hF { s with logL := b } (hsound _ hk) hg h2 le_rfl le_rfl le_rfl
  set θ := tgt.paramVec false with hθ
  have hlen : θ.length = (s.paramVec false).length := by simp [hθ, OPS.paramVec, htgt]
  have hpar : ∀ (x : ℝ) (st : TrainState), calibrateStart cfg { s with logL := x } = (.ok (), st) →
      (st.ops.setVec false θ).params = tgt.params ∧ st.ops.cohGrid = some (cohFallbackGrid (Real.exp x)) := by
    intro x st h
    have h1 := arch_start false cfg { s with logL := x }
    rw [h] at h1
    have h2 : Arch false { s with logL := x } tgt :=
      ⟨rfl, rfl, rfl, KindShape.refl _ _, SpShape.refl _, initApprox_congr rfl rfl rfl rfl rfl⟩
    have h3 := h1.trans h2
    refine ⟨?_, ?_⟩
    · rw [h3.setVec_params (v := θ) (by rw [h3.length]), hθ, setVec_paramVec]
    · rcases start_grid h with h4 | h4
      · simp [cfg] at h4
      · rw [h4]
        simp [OPS.cohGridUsed, hs]
  obtain ⟨qA, cA⟩ := hpar 0 st hst
  obtain ⟨qB, cB⟩ := hpar b st' hst'
  have sett : ∀ (st : TrainState) (x : ℝ), st.ops.cohGrid = some (cohFallbackGrid (Real.exp x)) →
      Spec.cohSetting cfg st.ops.cohGrid 1 1 (fun _ => r) (fun _ => 1) D := by
    intro st x h
    have g := C22_grids (Real.exp_pos x)
    exact Or.inr ⟨_, h, g.1, by rw [g.2.1]; norm_num, one_pos, one_pos, one_pos, one_pos, rfl⟩
  have lA := closure_objective cfg hF st (by rw [hgst]; exact hg) (by rw [hgst]; exact h2) (sett st 0 cA) θ
    (by show (st.ops.setVec false θ).params.LifetimeFinite; rw [qA]; exact hsound tgt hk) fun h => absurd h (lt_irrefl _)
  have lB := closure_objective cfg hF st' (by rw [hgst']; exact hg) (by rw [hgst']; exact h2) (sett st' b cB) θ
    (by show (st'.ops.setVec false θ).params.LifetimeFinite; rw [qB]; exact hsound tgt hk) fun h => absurd h (lt_irrefl _)
  refine ⟨cfg, b, θ, st, st', hlen, hst, hst', ?_⟩
  rw [lA, lB]
  intro heq
  have heq := Fl.fin.inj (Except.ok.inj heq)
  have hln : cfg.prob.learnNu = false := rfl
  rw [hln] at heq
  have ecell : ∀ i j, Spec.cell (OPS.forward ((List.range 3).map fun j : ℕ => (j : ℝ) + 1) (st.ops.setVec false θ)).1 i j =
      Spec.cell (OPS.forward ((List.range 3).map fun j : ℕ => (j : ℝ) + 1) (st'.ops.setVec false θ)).1 i j := by
    intro i j
    have eg : (st.ops.setVec false θ).grid = (st'.ops.setVec false θ).grid := hgst.trans hgst'.symm
    rw [forward_eq, forward_eq, qA, qB, eg]
  have cA' : (st.ops.setVec false θ).cohGrid = some GA := cA
  have cB' : (st'.ops.setVec false θ).cohGrid = some GB := cB
  unfold Spec.objective at heq
  simp only [ecell, qA, qB, cA', cB', Option.getD_some] at heq
  have w1 : cfg.coh.isSome = true := rfl
  have w2 : cfg.loss.gammaCoherence = 1 := rfl
  have w3 : cfg.loss.alphaPen1 = 0 := rfl
  have w4 : cfg.loss.alphaPen2 = 0 := rfl
  have w5 : cfg.loss.betaReg = 0 := rfl
  have w6 : cfg.phys = phys := rfl
  simp only [w1, w2, w3, w4, w5, w6, if_true, max_self, zero_mul, zero_div, add_zero, add_right_inj,
    max_eq_left (zero_le_one (α := ℝ)), one_mul] at heq
  have hz : Spec.coherenceMisfit 1 1 (fun c _ _ => Spec.fitCoherence phys GA tgt.params (![Comp3.u, Comp3.v, Comp3.w] c) r 1) D = 0 :=
    (coherenceMisfit_zero one_pos one_pos _ _).2 fun _ _ _ _ _ => rfl
  rw [hz] at heq
  have := (coherenceMisfit_zero one_pos one_pos _ _).1 heq.symm
  apply hc'
  cases c
  · exact (this 0 0 one_pos 0 one_pos).symm
  · exact (this 1 0 one_pos 0 one_pos).symm
  · exact (this 2 0 one_pos 0 one_pos).symm

/-- A freshly built object with constant lifetime meets the hypotheses. -/
example (hyp : ℝ → ℝ) : ∃ s, OPS.init hyp .const .vkLike 1 1 1 (-3) 3 100 none = .ok s ∧ s.cohGrid = none ∧ s.kind = .const ∧
    s.grid.Pairwise (· < ·) ∧ 2 ≤ s.grid.length :=
  ⟨_, if_pos ⟨one_pos, one_pos, one_pos⟩, rfl, rfl, opsGrid_sorted (by norm_num) 100, by
    show 2 ≤ (opsGrid (-3) 3 100).length
    rw [opsGrid_length]; norm_num⟩

/-- Data made from the model's own spectra meet the hypotheses of `C103_self_consistent`. -/
example (s : OPS) (hk : s.kind = .const) (hg : s.grid.Pairwise (· < ·)) (h2 : 2 ≤ s.grid.length) (θ₀ : List ℝ) :
    Spec.FitSetting { exampleCfg with
        loss := ⟨0, 0, 0, 1⟩
        target := Spec.table 3 3 fun i j => fin (Spec.cell (OPS.forward exampleCfg.k1s (s.setVec false θ₀)).1 i j) } 3
      (fun j => (j : ℝ) + 1) fun i j => Spec.cell (OPS.forward exampleCfg.k1s (s.setVec false θ₀)).1 i j := by
  have h0 : (s.setVec false θ₀).Sound := by simp [OPS.Sound, OPS.setVec, hk]
  exact ⟨rfl, le_rfl, ⟨fun j _ => by positivity, fun j _ => by push_cast; linarith⟩, rfl, rfl, fun i hi j hj =>
    (forward_cell_pos (k := fun j => (j : ℝ) + 1) (s.setVec false θ₀) h0.finite hg h2 (fun j _ => by positivity) hi hj).ne',
    one_ne_zero⟩

end
end Verif
