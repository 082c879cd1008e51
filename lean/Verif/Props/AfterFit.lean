import Verif.Model.ProblemState
import Verif.Props.CoherenceGradient
import Verif.Props.CoherenceFile

/-!
# C106: what `plot` and `print_calibrated_params` show after a fit
-/

namespace Verif
open Fl

noncomputable section
open Classical

/-- Coherence of component `col` that a spectra object reports for separation `r` and data frequency `f`: the value returned by
`SpectralCoherence` for that wavenumber and separation alone, and 1 for frequencies that are not resolved. -/
def Spec.reportedCoherence (phys : PhysCfg) (s : OPS) (col : ℕ) (r f : ℝ) : Fl :=
  if 1e-6 < f then
    match (OPS.SpectralCoherence [phys.factor * f / phys.Uref] [r] s).1 with
    | .ok m => ((m.getD col []).getD 0 []).getD 0 nan
    | .error _ => nan
  else fin 1

/-- A call that is not a fit. -/
def ProblemCall.NoFit : ProblemCall → Prop
  | .calibrate _ _ => False
  | _ => True

theorem reported_eq (phys : PhysCfg) (s : OPS) {col : ℕ} (hcol : col < 3) (r f : ℝ) :
    Spec.reportedCoherence phys s col r f =
      if 1e-6 < f then cohEntry s.params s.cohGridUsed s.cohGridUsed ([Comp3.u, .v, .w].getD col .u) (phys.factor * f / phys.Uref) r
      else fin 1 := by
  unfold Spec.reportedCoherence
  split
  · rw [(C45_fill phys [] [] s).2]
    interval_cases col <;> simp
  · rfl

theorem panel_at {α : Type} (F : ℕ → ℕ → α) {row col : ℕ} (hrow : row < 4) (hcol : col < 3) :
    ((List.range 4).map fun i => (List.range 3).map fun j => F i j)[row]?.bind (fun l => l[col]?) = some (F row col) := by
  simp [hrow, hcol]

theorem run_noFit (calls : List ProblemCall) (h : ∀ x ∈ calls, x.NoFit) (p : Problem) :
    (runProblem calls p).model = p.model ∧ (runProblem calls p).coh = p.coh ∧
      (runProblem calls p).calibrated = p.calibrated := by
  induction calls generalizing p with
  | nil => exact ⟨rfl, rfl, rfl⟩
  | cons x l ih =>
    have h1 := ih (fun y hy => h y (List.mem_cons_of_mem _ hy)) (x.run p)
    have h2 : (x.run p).model = p.model ∧ (x.run p).coh = p.coh ∧ (x.run p).calibrated = p.calibrated := by
      have := h x List.mem_cons_self
      cases x with
      | calibrate cfg opt => exact this.elim
      | setParameters ln v => exact ⟨rfl, rfl, rfl⟩
      | eval k => exact ⟨rfl, rfl, rfl⟩
    exact ⟨h1.1.trans h2.1, h1.2.1.trans h2.2.1, h1.2.2.trans h2.2.2⟩

theorem calibrate_fields (cfg : TrainCfg) (opt : ℕ → OptStep) (p : Problem) :
    (p.calibrate cfg opt).2.coh = cfg.coh ∧
    (∀ c, cfg.coh = some c → ∀ m, (computeModelCoherence cfg.phys c.freqs c.seps p.ops).1 = .ok m →
      (p.calibrate cfg opt).2.model = some m) ∧
    (p.calibrate cfg opt).2.ops = (Verif.calibrate cfg opt p.ops).2.ops ∧
    (p.calibrate cfg opt).1 = (Verif.calibrate cfg opt p.ops).1 := by
  unfold Problem.calibrate
  rcases hcal : Verif.calibrate cfg opt p.ops with ⟨e | c, st⟩ <;> simp only <;> refine ⟨trivial, ?_, trivial, trivial⟩ <;>
    intro c hc m hm <;> rw [hc] <;> simp only <;> rw [hm]

/-- **C106** The line labelled "Model" in the coherence figure is the coherence of the object as it was when the last fit
started.  Whatever the optimiser did, whether the fit returned or raised, and whatever calls other than another fit followed, the figure
shows for every selected separation, component and frequency the value that the object before the fit reports. -/
theorem C106_coherence_drawn (p : Problem) (cfg : TrainCfg) (opt : ℕ → OptStep) {c : CohFit} (hc : cfg.coh = some c)
    (h4 : 4 ≤ c.seps.length) {calls : List ProblemCall} (hcalls : ∀ x ∈ calls, x.NoFit) :
    ∃ panels, (runProblem calls (p.calibrate cfg opt).2).plotCoherence = .ok panels ∧ panels.length = 4 ∧
      (∀ l ∈ panels, l.length = 3) ∧
      ∀ row < 4, ∀ col < 3, ∃ P, panels[row]?.bind (fun l => l[col]?) = some P ∧ P.sep = c.seps.getD row 0 ∧
        P.model = some (c.freqs.map fun f => (f, Spec.reportedCoherence cfg.phys p.ops col (c.seps.getD row 0) f)) := by
  have hr := run_noFit calls hcalls (p.calibrate cfg opt).2
  have hf := calibrate_fields cfg opt p
  have h45 := (C45_fill cfg.phys c.freqs c.seps p.ops).1
  have hm := hf.2.1 c hc _ h45
  unfold Problem.plotCoherence
  rw [hr.2.1, hf.1, hc, hr.1, hm]
  simp only
  rw [if_neg (by omega)]
  refine ⟨_, rfl, by simp, by simp, ?_⟩
  intro row hrow col hcol
  refine ⟨_, panel_at _ hrow hcol, rfl, ?_⟩
  simp only [Option.map_some, Option.some.injEq]
  have hs : ∃ r, c.seps[row]? = some r := ⟨c.seps[row]'(by omega), List.getElem?_eq_getElem _⟩
  obtain ⟨r, hr'⟩ := hs
  have hzip : ∀ (l : List ℝ) (g : ℝ → Fl), l.zip (l.map g) = l.map fun f => (f, g f) := fun l g => by
    induction l with
    | nil => rfl
    | cons a l ih => simp only [List.map_cons, List.zip_cons_cons, ih]
  have key : ((([Comp3.u, Comp3.v, Comp3.w].map fun c' => c.seps.map fun r => c.freqs.map fun f => if 1e-6 < f then
        cohEntry p.ops.params p.ops.cohGridUsed p.ops.cohGridUsed c' (cfg.phys.factor * f / cfg.phys.Uref) r else fin 1).getD
          col []).getD row []) = c.freqs.map fun f => Spec.reportedCoherence cfg.phys p.ops col (c.seps.getD row 0) f := by
    have : c.seps.getD row 0 = r := by simp [hr']
    rw [this]
    refine Eq.trans ?_ (List.map_congr_left fun f _ => (reported_eq cfg.phys p.ops hcol r f).symm)
    interval_cases col <;> simp [hr']
  exact (congrArg (List.zip c.freqs) key).trans (hzip _ _)

/-- **C106** With data read from a file the figure always has its four rows, one for each selected separation of the file, and
the markers are the file's values at that separation. -/
theorem C106_file_drawn (p : Problem) (cfg : TrainCfg) (opt : ℕ → OptStep) {rows : List CohRow} {d : CohFileData}
    (hd : loadCoherence rows = (.ok (), some d)) (hc : cfg.coh = some d.fit) {calls : List ProblemCall}
    (hcalls : ∀ x ∈ calls, x.NoFit) :
    4 ≤ d.fit.seps.length ∧
    ∃ panels, (runProblem calls (p.calibrate cfg opt).2).plotCoherence = .ok panels ∧
      ∀ row < 4, ∃ i : ℕ, i < d.seps.length ∧ (plotSepIndices d.seps.length)[row]? = some (i : ℤ) ∧
        ∀ col < 3, ∃ P, panels[row]?.bind (fun l => l[col]?) = some P ∧ d.seps[i]? = some P.sep ∧
          P.data = d.freqs.zip ((List.range d.nFreqs).map (([d.u, d.v, d.w].getD col d.u) i)) := by
  have hn : d.sepIndices = plotSepIndices d.seps.length ∧ 1 ≤ d.seps.length := by
    unfold loadCoherence at hd
    simp only at hd
    split at hd
    · simp at hd
    · split at hd
      · simp at hd
      · rename_i h0
        simp only [Prod.mk.injEq, Option.some.injEq, true_and] at hd
        rw [← hd]
        exact ⟨rfl, Nat.one_le_iff_ne_zero.2 h0⟩
  obtain ⟨hidx, hn⟩ := hn
  have hsel := C44_selection hn
  have h4 : 4 ≤ d.fit.seps.length := by simp [CohFileData.fit, hidx, hsel.1]
  refine ⟨h4, ?_⟩
  have hr := run_noFit calls hcalls (p.calibrate cfg opt).2
  have hf := calibrate_fields cfg opt p
  unfold Problem.plotCoherence
  rw [hr.2.1, hf.1, hc]
  simp only
  rw [if_neg (by omega)]
  refine ⟨_, rfl, fun row hrow => ?_⟩
  obtain ⟨z, hz⟩ : ∃ z, (plotSepIndices d.seps.length)[row]? = some z :=
    ⟨(plotSepIndices d.seps.length)[row]'(by rw [hsel.1]; exact hrow), List.getElem?_eq_getElem _⟩
  have hzr := hsel.2.1 z (List.mem_of_getElem? hz)
  obtain ⟨i, rfl⟩ := Int.eq_ofNat_of_zero_le hzr.1
  have hi : i < d.seps.length := by exact_mod_cast hzr.2
  refine ⟨i, hi, hz, fun col hcol => ⟨_, panel_at _ hrow hcol, ?_, ?_⟩⟩
  · simp [CohFileData.fit, hidx, hz, hi]
  · simp only [CohFileData.fit, hidx]
    interval_cases col <;> simp [hz, CohFileData.row]

/-- The calls of a sequence that are successful fits, with their results: `some c` if call `x` in state `p` is a fit that
returns `c`. -/
def ProblemCall.fitResult : ProblemCall → Problem → Option Calibrated
  | .calibrate cfg opt, p => match (p.calibrate cfg opt).1 with
    | .ok c => some c
    | .error _ => none
  | _, _ => none

/-- No call of the sequence is a fit that returns. -/
def NoneReturns (calls : List ProblemCall) (p : Problem) : Prop :=
  ∀ pre x post, calls = pre ++ x :: post → x.fitResult (runProblem pre p) = none

theorem run_calibrated (x : ProblemCall) (p : Problem) :
    (x.run p).calibrated = (match x.fitResult p with | some c => some c | none => p.calibrated) := by
  cases x with
  | setParameters ln v => rfl
  | eval k => rfl
  | calibrate cfg opt =>
    simp only [ProblemCall.run, ProblemCall.fitResult, Problem.calibrate]
    rcases Verif.calibrate cfg opt p.ops with ⟨e | c, st⟩ <;> rfl

theorem run_noneReturns (calls : List ProblemCall) (p : Problem) (h : NoneReturns calls p) :
    (runProblem calls p).calibrated = p.calibrated := by
  induction calls generalizing p with
  | nil => rfl
  | cons x l ih =>
    have h0 := h [] x l rfl
    have h1 := ih (x.run p) fun pre y post he => h (x :: pre) y post (by rw [he]; rfl)
    have h2 := run_calibrated x p
    rw [show x.fitResult p = none from h0] at h2
    exact h1.trans h2

/-- **C106** `print_calibrated_params` reports the result of the last fit that returned: a later fit that raises and later
assignments of parameters leave it as it is; as long as no fit has returned it raises `ValueError`. -/
theorem C106_printed (ops : OPS) (pre post : List ProblemCall) :
    (NoneReturns pre (Problem.new ops) → (runProblem pre (Problem.new ops)).printed = .error .valueError) ∧
    ∀ cfg opt c, ((runProblem pre (Problem.new ops)).calibrate cfg opt).1 = .ok c →
      NoneReturns post ((runProblem pre (Problem.new ops)).calibrate cfg opt).2 →
      (runProblem (pre ++ .calibrate cfg opt :: post) (Problem.new ops)).printed = .ok c := by
  constructor
  · intro h
    unfold Problem.printed
    rw [run_noneReturns pre _ h]
    rfl
  · intro cfg opt c hc h
    have h1 : runProblem (pre ++ .calibrate cfg opt :: post) (Problem.new ops) =
        runProblem post ((runProblem pre (Problem.new ops)).calibrate cfg opt).2 := by
      simp [runProblem, ProblemCall.run]
    have h2 := run_calibrated (.calibrate cfg opt) (runProblem pre (Problem.new ops))
    simp only [ProblemCall.fitResult, ProblemCall.run, hc] at h2
    unfold Problem.printed
    rw [h1, run_noneReturns post _ h, h2]

/-- **C106** Without a learnable spectrum there is never anything to print: if every fit of the sequence is of that kind and asks
for at least one epoch, `print_calibrated_params` raises. -/
theorem C106_fixed_spectrum (ops : OPS) (calls : List ProblemCall)
    (h : ∀ cfg opt, ProblemCall.calibrate cfg opt ∈ calls → cfg.prob.learnable = false ∧ 1 ≤ cfg.prob.nepochs) :
    (runProblem calls (Problem.new ops)).printed = .error .valueError := by
  refine (C106_printed ops calls []).1 fun pre x post he => ?_
  cases x with
  | setParameters ln v => rfl
  | eval k => rfl
  | calibrate cfg opt =>
    obtain ⟨h1, h2⟩ := h cfg opt (by rw [he]; simp)
    obtain ⟨e, st, h3⟩ := (C39_fixed_spectrum_raises cfg opt (runProblem pre (Problem.new ops)).ops h1 h2).1
    simp only [ProblemCall.fitResult]
    rw [(calibrate_fields cfg opt _).2.2.2, h3]

/-- **C106** The eddy-lifetime figure for the `MANN` lifetime.  The abscissa is `k` times the length scale given at construction;
the four model curves coincide and are `Γ τ(L k)` with the current scales, the reference is `Γ₀ τ(L₀ k)` with the scales given at
construction. -/
theorem C106_lifetime_figure {s : OPS} (h : IsMannHyp s.hyp) (hk : s.kind = .mann) (phys : PhysCfg) (hL : 0 < phys.L) :
    ∃ pts, tauFigure s.hyp phys s = .ok pts ∧ pts.length = 50 ∧
      ∀ P ∈ pts, 1e-3 * phys.L ≤ P.x ∧ P.x ≤ 1e3 * phys.L ∧ ∃ y y₀ : ℝ,
        P.model = [fin y, fin y, fin y, fin y] ∧ P.ref = fin y₀ ∧
        fin (Real.exp s.logT) * MannEddyLifetime s.hyp (fin (Real.exp s.logL / phys.L * P.x)) = fin y ∧
        fin phys.Gamma * MannEddyLifetime s.hyp (fin P.x) = fin y₀ ∧
        (Real.exp s.logL = phys.L → Real.exp s.logT = phys.Gamma → y = y₀) := by
  refine ⟨_, rfl, by simp [logspace, linspace], ?_⟩
  intro P hP
  obtain ⟨k, hk', rfl⟩ := List.mem_map.1 hP
  have hk0 : 0 < k := logspace_pos hk'
  have hrange : 1e-3 ≤ k ∧ k ≤ 1e3 := by
    unfold logspace linspace at hk'
    rw [List.map_map] at hk'
    obtain ⟨i, hi, rfl⟩ := List.mem_map.1 hk'
    have hi' : (i : ℝ) ≤ 49 := by
      have := List.mem_range.1 hi
      exact_mod_cast (by omega : i ≤ 49)
    have hi0 : (0 : ℝ) ≤ i := Nat.cast_nonneg _
    have e1 : (1e-3 : ℝ) = 10 ^ (-3 : ℝ) := by
      rw [show (-3 : ℝ) = ((-3 : ℤ) : ℝ) by norm_num, Real.rpow_intCast]; norm_num
    have e2 : (1e3 : ℝ) = 10 ^ (3 : ℝ) := by
      rw [show (3 : ℝ) = ((3 : ℤ) : ℝ) by norm_num, Real.rpow_intCast]; norm_num
    rw [e1, e2]
    simp only [Function.comp_apply]
    constructor <;> refine Real.rpow_le_rpow_of_exponent_le (by norm_num) ?_ <;> push_cast <;> linarith
  have hnorm : ∀ v ∈ [(⟨k, 0, 0⟩ : K3), ⟨0, k, 0⟩, ⟨0, 0, k⟩, ⟨k / Real.sqrt 3, k / Real.sqrt 3, k / Real.sqrt 3⟩],
      vecNorm [v.k1, v.k2, v.k3] = k := by
    have h3 : Real.sqrt 3 * Real.sqrt 3 = 3 := Real.mul_self_sqrt (by norm_num)
    have h30 : Real.sqrt 3 ≠ 0 := fun h => by rw [h] at h3; norm_num at h3
    intro v hv
    rw [vecNorm3, ← Real.sqrt_sq hk0.le]
    congr 1
    simp only [List.mem_cons, List.not_mem_nil, or_false] at hv
    rcases hv with rfl | rfl | rfl | rfl <;> simp only
    · ring
    · ring
    · ring
    · field_simp
      rw [show Real.sqrt 3 ^ 2 = 3 by rw [pow_two, h3]]
      ring
  have hLk : 0 < Real.exp s.logL * k := mul_pos (Real.exp_pos _) hk0
  have hval : ∀ v ∈ [(⟨k, 0, 0⟩ : K3), ⟨0, k, 0⟩, ⟨0, 0, k⟩, ⟨k / Real.sqrt 3, k / Real.sqrt 3, k / Real.sqrt 3⟩],
      eddyLifetime s.expScales.initApprox.hyp s.expScales.initApprox.ty (Real.exp s.expScales.initApprox.logL)
        (Real.exp s.expScales.initApprox.logT) v = fin (Real.exp s.logT * mannTau s.hyp (Real.exp s.logL * k)) := by
    intro v hv
    have e1 : s.expScales.initApprox.ty = .mann := by
      unfold OPS.ty
      rw [show s.expScales.initApprox.kind = .mann from hk]
    rw [e1]
    show eddyLifetime s.hyp .mann (Real.exp s.logL) (Real.exp s.logT) v = _
    unfold eddyLifetime
    simp only
    rw [hnorm v hv, show fin (Real.exp s.logL) * fin k = fin (Real.exp s.logL * k) from rfl, mannTau_eq h hLk]
    rfl
  refine ⟨mul_le_mul_of_nonneg_right hrange.1 hL.le, mul_le_mul_of_nonneg_right hrange.2 hL.le,
    Real.exp s.logT * mannTau s.hyp (Real.exp s.logL * k), phys.Gamma * mannTau s.hyp (phys.L * k), ?_, ?_, ?_, ?_, ?_⟩
  · simp only [List.cons.injEq, and_true]
    exact ⟨hval _ (by simp), hval _ (by simp), hval _ (by simp), hval _ (by simp)⟩
  · rw [mannTau_eq h (mul_pos hL hk0)]; rfl
  · simp only
    rw [show Real.exp s.logL / phys.L * (k * phys.L) = Real.exp s.logL * k by field_simp, mannTau_eq h hLk]; rfl
  · simp only
    rw [mul_comm k, mannTau_eq h (mul_pos hL hk0)]; rfl
  · intro h1 h2
    rw [h1, h2]

/-- **C106** After a fit that changed the length scale the model curve of that figure is displaced: nowhere on the figure is its value at
abscissa `x` the fitted lifetime `Γ τ(x)` of the axis label `kL`. -/
theorem C106_lifetime_displaced {s : OPS} (h : IsMannHyp s.hyp) (hk : s.kind = .mann) (phys : PhysCfg) (hL : 0 < phys.L)
    (hne : Real.exp s.logL ≠ phys.L) :
    ∃ pts, tauFigure s.hyp phys s = .ok pts ∧
      ∀ P ∈ pts, ∀ y ∈ P.model, y ≠ fin (Real.exp s.logT) * MannEddyLifetime s.hyp (fin P.x) := by
  obtain ⟨pts, hp, -, hpts⟩ := C106_lifetime_figure h hk phys hL
  refine ⟨pts, hp, fun P hP y hy => ?_⟩
  obtain ⟨hx, -, v, v0, hm, -, hv, -, -⟩ := hpts P hP
  have hx0 : 0 < P.x := lt_of_lt_of_le (by positivity) hx
  have : y = fin v := by rw [hm] at hy; simpa using hy
  rw [this, ← hv]
  have hE := Real.exp_pos s.logL
  have hq : 0 < Real.exp s.logL / phys.L * P.x := by positivity
  have hxx : Real.exp s.logL / phys.L * P.x ≠ P.x := by
    intro he
    refine hne ?_
    have : Real.exp s.logL / phys.L = 1 := by
      have := mul_right_cancel₀ hx0.ne' (he.trans (one_mul _).symm)
      exact this
    rwa [div_eq_one_iff_eq hL.ne'] at this
  have hT := Real.exp_pos s.logT
  intro he
  rcases lt_or_gt_of_ne hxx with hlt | hlt
  · obtain ⟨τ, τ', e1, e2, -, e3, -⟩ := C90_slopes h hq hlt
    rw [e1, e2] at he
    have := mul_left_cancel₀ hT.ne' (Fl.fin.inj he)
    linarith
  · obtain ⟨τ, τ', e1, e2, -, e3, -⟩ := C90_slopes h hx0 hlt
    rw [e1, e2] at he
    have := mul_left_cancel₀ hT.ne' (Fl.fin.inj he)
    linarith

/-- **C106** So the figure does not show the fit.  For every object with constant lifetime, learnable spectrum and no coherence
grid there are coherence data, a configuration and an optimiser such that the fit returns and a plotted "Model" value differs from what
the fitted object reports for that separation and frequency. -/
theorem C106_not_the_fit (s : OPS) (hs : s.cohGrid = none) (hk : s.kind = .const) {p q : ℝ}
    (hsp : s.sp = .learnable p q) (hg : s.grid.Pairwise (· < ·)) (h2 : 2 ≤ s.grid.length) :
    ∃ (cfg : TrainCfg) (c : CohFit) (opt : ℕ → OptStep) (res : Calibrated) (panels : List (List CohPanel)) (P : CohPanel)
      (v : Fl), cfg.coh = some c ∧
      ((Problem.new s).calibrate cfg opt).1 = .ok res ∧
      ((Problem.new s).calibrate cfg opt).2.plotCoherence = .ok panels ∧
      panels[0]?.bind (fun l => l[2]?) = some P ∧ P.model = some [(1, v)] ∧
      v ≠ Spec.reportedCoherence cfg.phys ((Problem.new s).calibrate cfg opt).2.ops 2 P.sep 1 := by
  have hsound : ∀ o : OPS, o.kind = .const → o.params.LifetimeFinite := fun o h => by
    have : o.Sound := by unfold OPS.Sound; rw [h]; trivial
    exact this.finite
  set G := cohFallbackGrid (Real.exp s.logL) with hG
  have gG := C22_grids (Real.exp_pos s.logL)
  obtain ⟨a, c, d, l, hshape, hsym⟩ := cohFallback_shape (Real.exp_pos s.logL)
  rw [← hG] at gG hshape hsym
  let phys : PhysCfg := ⟨1, 1, 1, 1, 1, 1, 1⟩
  obtain ⟨m, n, r, hne⟩ := cohW_nonconst s.hyp phys (by norm_num [phys]) (a := a) (c := c) (d := d) (l := l)
    (by rw [← hshape]; exact gG.1) (by rw [← hshape]; exact hsym)
  rw [← hshape] at hne
  -- one of the two parameter vectors changes the coherence
  obtain ⟨e, m', hne'⟩ : ∃ e m' : ℝ, Spec.fitCoherence phys G s.params .w r 1 ≠
      Spec.fitCoherence phys G ⟨s.hyp, .const, .learnable e 0, 0, 0, m'⟩ .w r 1 := by
    by_contra hcon
    push Not at hcon
    exact hne ((hcon 0 m).symm.trans (hcon n 0))
  let P : OPSParams := ⟨s.hyp, .const, .learnable e 0, 0, 0, m'⟩
  let D : Fin 3 → ℕ → ℕ → ℝ := fun _ _ _ => 0
  let co : CohFit := ⟨(List.range 1).map fun _ => 1, (List.range 4).map fun _ => r, Spec.table 4 1 fun i j => fin (D 0 i j),
      Spec.table 4 1 fun i j => fin (D 1 i j), Spec.table 4 1 fun i j => fin (D 2 i j)⟩
  let cfg : TrainCfg := ⟨⟨3, 1e-3, 1, false, .const, false, true, 4, 17 / 6⟩, phys, ⟨0, 0, 0, 1⟩,
    (List.range 3).map fun j : ℕ => (j : ℝ) + 1, Spec.table 3 3 fun _ _ => fin 1, some co⟩
  have hF : Spec.FitSetting cfg 3 (fun j => (j : ℝ) + 1) fun _ _ => 1 :=
    ⟨rfl, le_rfl, ⟨fun j _ => by positivity, fun j _ => by push_cast; linarith⟩, rfl, rfl, fun _ _ _ _ => one_ne_zero, one_ne_zero⟩
  obtain ⟨st, hst, hgst⟩ := start_ok cfg hF s (hsound _ hk) hg h2 le_rfl le_rfl le_rfl
  have harch := arch_start false cfg s
  rw [hst] at harch
  have hcg : st.ops.cohGrid = some G := by
    rcases start_grid hst with h4 | h4
    · simp [cfg] at h4
    · rw [h4]
      simp [OPS.cohGridUsed, hs, hG]
  let tgt : OPS := { s with logL := 0, logT := 0, logM := m', sp := .learnable e 0 }
  have htgt : tgt.params = P := by
    have hty : tgt.initApprox.ty = .const := by
      unfold OPS.ty
      rw [(initApprox_fields tgt).2.1]
      simp [tgt, hk]
    unfold OPS.params
    rw [hty]
  have h2' : Arch false s tgt :=
    ⟨rfl, rfl, rfl, KindShape.refl _ _, by rw [hsp]; exact trivial, initApprox_congr rfl rfl rfl rfl rfl⟩
  set θ : List ℝ := tgt.paramVec false with hθ
  have h3 := harch.trans h2'
  have hset : ∀ o : OPS, Arch false o tgt → (o.setVec false θ).params = P := fun o ho => by
    rw [ho.setVec_params (v := tgt.paramVec false) (by rw [ho.length]), setVec_paramVec, htgt]
  have hlen : θ.length = (st.ops.paramVec false).length := by rw [h3.length]
  have sett : Spec.cohSetting cfg st.ops.cohGrid 4 1 (fun _ => r) (fun _ => 1) D :=
    Or.inr ⟨_, hcg, gG.1, by rw [gG.2.1]; norm_num, by norm_num, one_pos, one_pos, one_pos, rfl⟩
  have lA := closure_objective cfg hF st (by rw [hgst]; exact hg) (by rw [hgst]; exact h2) sett θ
    (by show (st.ops.setVec false θ).params.LifetimeFinite; rw [hset _ h3]; exact lifetimeFinite_of P trivial)
      fun h => absurd h (lt_irrefl _)
  have hag := archG_closure (cfg := cfg) (ln := false) rfl (θ := θ) (st := st) (Or.inr (by rw [hcg]; simp)) hlen
  rcases hcl : closure cfg θ st with ⟨rc, st1⟩
  rw [hcl] at lA hag
  simp only at lA hag
  subst lA
  have hloss : st1.loss = fin (Spec.objective cfg 3 (fun j => (j : ℝ) + 1) (fun _ _ => 1) 4 1 (fun _ => r) (fun _ => 1) D
      (st.ops.setVec cfg.prob.learnNu θ)) := by
    unfold closure at hcl
    simp only at hcl
    split at hcl
    · simp at hcl
    · split at hcl
      · simp at hcl
      · split at hcl
        · simp at hcl
        · simp only [Prod.mk.injEq, Except.ok.injEq] at hcl
          rw [← hcl.2, ← hcl.1]
  have h5 := hag.1.trans h3
  let opt : ℕ → OptStep := fun _ => ⟨[θ], θ⟩
  obtain ⟨res, st2, hrun, hops⟩ : ∃ res st2, calibrate cfg opt s = (.ok res, st2) ∧ st2.ops = st1.ops.setVec false θ := by
    have hep : ∃ b st2, runEpoch cfg 1 ⟨[θ], θ⟩ st = (.ok b, st2) := by
      unfold runEpoch closures closures
      rw [hcl]
      simp only
      rw [if_neg (by simp [cfg]), if_neg (by rw [hloss]; simp)]
      split
      · exact ⟨_, _, rfl⟩
      · rw [if_neg (by norm_num)]
        exact ⟨_, _, rfl⟩
    obtain ⟨b, st2, hb⟩ := hep
    have ho := (runEpoch_single hb).2
    rw [hcl] at ho
    refine ⟨calibratedParams cfg.prob.learnable (st2.ops.paramVec cfg.prob.learnNu), st2, ?_, ho⟩
    unfold calibrate
    rw [hst]
    simp only
    have : runEpochs cfg opt 1 cfg.prob.nepochs st = (.ok (), st2) := by
      show runEpochs cfg opt 1 1 st = _
      unfold runEpochs
      show (match runEpoch cfg 1 ⟨[θ], θ⟩ st with | (.error err, st) => _ | (.ok true, st) => _ | (.ok false, st) => _) = _
      rw [hb]
      cases b <;> rfl
    rw [this]
  have hf := calibrate_fields cfg opt (Problem.new s)
  obtain ⟨panels, hp1, -, -, hp4⟩ := C106_coherence_drawn (Problem.new s) cfg opt (c := co) rfl (by simp [co]) (calls := []) (by simp)
  obtain ⟨Q, hQ1, hQ2, hQ3⟩ := hp4 0 (by norm_num) 2 (by norm_num)
  have hsep : co.seps.getD 0 0 = r := by simp [co]
  rw [hsep] at hQ2 hQ3
  refine ⟨cfg, co, opt, res, panels, Q, _, rfl, ?_, hp1, hQ1, hQ3, ?_⟩
  · rw [hf.2.2.2]
    show (calibrate cfg opt s).1 = _
    rw [hrun]
  · rw [hQ2, reported_eq _ _ (by norm_num), reported_eq _ _ (by norm_num), hf.2.2.1]
    rw [show (Problem.new s).ops = s from rfl, hrun]
    simp only
    have hg2 : st2.ops.cohGridUsed = G := by
      have : st2.ops.cohGrid = some G := by
        rw [hops]
        exact hag.coh.trans hcg
      simp [OPS.cohGridUsed, this]
    have hg0 : s.cohGridUsed = G := by simp [OPS.cohGridUsed, hs, hG]
    have hpp : st2.ops.params = P := by rw [hops]; exact hset _ h5
    have v1 := cohEntry_value phys s (hsound s hk) gG.1 (by rw [gG.2.1]; norm_num) one_pos one_pos .w r 1
    have v2 := cohEntry_value phys st2.ops (by rw [hpp]; exact lifetimeFinite_of P trivial) gG.1 (by rw [gG.2.1]; norm_num) one_pos
      one_pos .w r 1
    rw [hg2, hg0]
    intro heq
    refine hne' (Fl.fin.inj ?_)
    rw [← v1, show Spec.fitCoherence phys G ⟨s.hyp, .const, .learnable e 0, 0, 0, m'⟩ .w r 1 =
      Spec.fitCoherence phys G st2.ops.params .w r 1 by rw [hpp], ← v2]
    exact heq

/-- A sequence of calls without a fit, and four separations. -/
example : (∀ x ∈ [ProblemCall.setParameters false [0, 0, 0], .eval [1]], x.NoFit) ∧
    4 ≤ (CohFit.mk [0, 1] [1, 2, 3, 4] [] [] []).seps.length := by simp [ProblemCall.NoFit]

/-- A file whose single separation is drawn four times. -/
example : ∃ d, loadCoherence [⟨0, 0, 10, 1, 1, 1, 1⟩] = (.ok (), some d) := by
  have h : uniqueIdx [0] = [0] := uniqueIdx_eq (by simp) (by simp)
  unfold loadCoherence
  simp [firstValues, h]

/-- The two sequences of `C106_printed`. -/
example (ops : OPS) : NoneReturns [.setParameters false [0, 0, 0], .eval [1]] (Problem.new ops) := by
  intro pre x post h
  rcases pre with _ | ⟨a, _ | ⟨b, pre⟩⟩
  · simp only [List.nil_append, List.cons.injEq] at h; rw [← h.1]; rfl
  · simp only [List.cons_append, List.nil_append, List.cons.injEq] at h; rw [← h.2.1]; rfl
  · simp at h

/-- Length scales that differ. -/
example : (∃ hyp, IsMannHyp hyp) ∧ Real.exp 1 ≠ (PhysCfg.mk 1 1 1 1 1 1 1).L :=
  ⟨exists_isMannHyp, fun h => by simp at h⟩

end
end Verif
