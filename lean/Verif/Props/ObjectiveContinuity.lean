import Verif.Props.ParamContinuity
import Verif.Props.LossValue
import Verif.Props.CoherenceLimit
import Verif.Props.Training

/-!
# Continuity of the training objective in the parameters (C102)
-/

namespace Verif
open Fl Filter Topology Verif.Spec

noncomputable section

/-- Mean square of the network parameters; zero for the other lifetime models. -/
def Spec.netMeanSquare (ln : Bool) (s : OPS) : ℝ := match s.kind with
  | .taunet net => (((net.paramVec ln).map fun x => x ^ 2).sum / (net.paramVec ln).length)
  | _ => 0

/-- Predicted coherence compared with the data: at low frequencies 1. -/
def Spec.fitCoherence (phys : PhysCfg) (g : List ℝ) (p : OPSParams) (c : Comp3) (r f : ℝ) : ℝ :=
  open Classical in if 1e-6 < f then
    ((quad23 g g fun k2 k3 => Spec.cohDensity p c (phys.factor * f / phys.Uref) k2 k3 * Real.cos (k2 * r)) ^ 2 +
      (quad23 g g fun k2 k3 => Spec.cohDensity p c (phys.factor * f / phys.Uref) k2 k3 * Real.sin (k2 * r)) ^ 2) /
      (quad23 g g fun k2 k3 => Spec.cohDensity p c (phys.factor * f / phys.Uref) k2 k3) ^ 2
  else 1

/-- The coherence part of the configuration: absent, or `a` separations and `b` frequencies with real data, and an integration
grid that is already fixed. -/
def Spec.cohSetting (cfg : TrainCfg) (g : Option (List ℝ)) (a b : ℕ) (r f : ℕ → ℝ) (D : Fin 3 → ℕ → ℕ → ℝ) : Prop :=
  cfg.coh = none ∨ ∃ g', g = some g' ∧ g'.Pairwise (· < ·) ∧ 2 ≤ g'.length ∧ 0 < a ∧ 0 < b ∧ 0 < cfg.phys.factor ∧
    0 < cfg.phys.Uref ∧ cfg.coh = some ⟨(List.range b).map f, (List.range a).map r, Spec.table a b fun i j => fin (D 0 i j),
      Spec.table a b fun i j => fin (D 1 i j), Spec.table a b fun i j => fin (D 2 i j)⟩

/-- The objective, written out: misfit, coherence, slope, curvature, regularisation. -/
def Spec.objective (cfg : TrainCfg) (n : ℕ) (k : ℕ → ℝ) (t : ℕ → ℕ → ℝ) (a b : ℕ) (r f : ℕ → ℝ) (D : Fin 3 → ℕ → ℕ → ℝ)
    (s : OPS) : ℝ :=
  let y := fun i j => Spec.cell (OPS.forward ((List.range n).map k) s).1 i j
  Spec.tableMisfit 3 n y t +
    (if cfg.coh.isSome then max cfg.loss.gammaCoherence 0 * Spec.coherenceMisfit a b (fun c i j =>
      Spec.fitCoherence cfg.phys (s.cohGrid.getD []) s.params (![Comp3.u, Comp3.v, Comp3.w] c) (r i) (f j)) D else 0) +
    max cfg.loss.alphaPen1 0 * Spec.slopePenalty 3 n k y / cfg.phys.zref +
    max cfg.loss.alphaPen2 0 * Spec.curvaturePenalty 3 n k y / cfg.phys.zref ^ 2 +
    max cfg.loss.betaReg 0 * Spec.netMeanSquare cfg.prob.learnNu s

theorem forward_take_table (s : OPS) (hp : s.params.LifetimeFinite) (n : ℕ) {k : ℕ → ℝ} (hk : ∀ j < n, 0 < k j) :
    ∃ y, (OPS.forward ((List.range n).map k) s).1 = .ok y ∧
      y.take 3 = Spec.table 3 n fun i j => fin (Spec.cell (OPS.forward ((List.range n).map k) s).1 i j) := by
  refine ⟨_, forward_eq _ _, ?_⟩
  have hc : ∀ i (hi : i < 3), ∀ j (hj : j < n), (phiSelectors[i]'(by show i < 6; omega)) = (phiSelectors[i]'(by show i < 6; omega)) ∧
      (fin (k j) * quad23 s.grid s.grid fun k2 k3 => (phiSelectors[i]'(by show i < 6; omega)) (opsPhi s.params ⟨k j, k2, k3⟩)) =
      fin (Spec.cell (OPS.forward ((List.range n).map k) s).1 i j) := by
    intro i hi j hj
    refine ⟨rfl, ?_⟩
    have hj' : j < ((List.range n).map k).length := by simpa using hj
    have e := forward_cell ((List.range n).map k) s (i := i) (j := j) (by omega) hj'
    rw [e]
    simp only [List.getElem_map, List.getElem_range]
    obtain ⟨x, hx⟩ : ∃ x : ℝ → ℝ → ℝ, ∀ k2 k3, (phiSelectors[i]'(by show i < 6; omega)) (opsPhi s.params ⟨k j, k2, k3⟩) = fin (x k2 k3) := by
      have : ∀ k2 k3, ∃ x : ℝ, (phiSelectors[i]'(by show i < 6; omega)) (opsPhi s.params ⟨k j, k2, k3⟩) = fin x := by
        intro k2 k3
        obtain ⟨w, -, e⟩ := opsPhi_spec s.params hp (hk j hj).ne' k2 k3
        rw [e]
        obtain rfl | rfl | rfl : i = 0 ∨ i = 1 ∨ i = 2 := by omega
        all_goals exact ⟨_, rfl⟩
      choose x hx using this
      exact ⟨x, hx⟩
    have hq : (fin (k j) * quad23 s.grid s.grid fun k2 k3 => (phiSelectors[i]'(by show i < 6; omega))
        (opsPhi s.params ⟨k j, k2, k3⟩)) = fin (k j * quad23 s.grid s.grid x) := by
      rw [quad23_fin (f := x) fun y _ z _ => hx y z, fin_mul_fin]
    exact hq.trans (congrArg (fun z : Fl => fin z.toReal) hq).symm
  apply List.ext_getElem
  · simp [Spec.table, phiSelectors]
  · intro i h1 h2
    have hi : i < 3 := by simpa [Spec.table] using h2
    apply List.ext_getElem
    · simp [Spec.table]
    · intro j h3 h4
      have hj : j < n := by simpa [Spec.table] using h4
      have := (hc i hi j hj).2
      simp only [Spec.table, List.getElem_take, List.getElem_map, List.getElem_range]
      exact this

theorem cohEntry_value (phys : PhysCfg) (s : OPS) (hp : s.params.LifetimeFinite) {g : List ℝ} (hg : g.Pairwise (· < ·))
    (h2 : 2 ≤ g.length) (h0 : 0 < phys.factor) (h1 : 0 < phys.Uref) (c : Comp3) (r f : ℝ) :
    (open Classical in if 1e-6 < f then cohEntry s.params g g c (phys.factor * f / phys.Uref) r else fin 1) =
      fin (Spec.fitCoherence phys g s.params c r f) := by
  unfold Spec.fitCoherence
  split_ifs with h
  · have hf : 0 < f := lt_trans (by norm_num) h
    have hk : 0 < phys.factor * f / phys.Uref := by positivity
    have hw := gridWidth_pos hg h2
    have hq : 0 < quad23 g g (Spec.cohDensity s.params c (phys.factor * f / phys.Uref)) := by
      refine lt_of_lt_of_le ?_ (quad23_ge (c := 1e-32) (hg.imp le_of_lt) (hg.imp le_of_lt) fun x _ y _ => ?_)
      · positivity
      · exact le_max_right _ _
    rw [cohEntry_fin s.params g g c _ r _ (fun k2 _ k3 _ => cohPhi_spec s.params hp hk.ne' c k2 k3) hq, cohZ_re,
      ← Complex.normSq_eq_norm_sq, Complex.normSq_mk]
    simp only [← sq]
  · rfl

/-! ### The network parameters -/

section
variable {X : Type} [TopologicalSpace X]

theorem ContList.append {v w : X → List ℝ} (hv : ContList v) (hw : ContList w) : ContList fun x => v x ++ w x := by
  obtain ⟨fs, hc, e⟩ := hv
  obtain ⟨gs, hc', e'⟩ := hw
  refine ⟨fs ++ gs, fun f hf => ?_, fun x => by simp [e, e']⟩
  rcases List.mem_append.1 hf with h | h
  · exact hc f h
  · exact hc' f h

theorem contList_nil : ContList fun _ : X => ([] : List ℝ) := ⟨[], by simp, fun x => rfl⟩

theorem ContMat.flatten {W : X → List (List ℝ)} (h : ContMat W) : ContList fun x => (W x).flatten := by
  obtain ⟨fs, hc, e⟩ := h
  simp only [e]
  induction fs generalizing W with
  | nil => simpa using contList_nil
  | cons f fs ih =>
    simp only [List.map_cons, List.flatten_cons]
    exact (hc f (by simp)).append (ih (W := fun x => fs.map fun f => f x) (fun g hg => hc g (by simp [hg])) fun x => rfl)

theorem ContMats.flatten {W : X → List (List (List ℝ))} (h : ContMats W) : ContList fun x => ((W x).map List.flatten).flatten := by
  obtain ⟨fs, hc, e⟩ := h
  simp only [e]
  induction fs generalizing W with
  | nil => simpa using contList_nil
  | cons f fs ih =>
    simp only [List.map_cons, List.flatten_cons]
    exact (hc f (by simp)).flatten.append
      (ih (W := fun x => fs.map fun f => f x) (fun g hg => hc g (by simp [hg])) fun x => rfl)

theorem ContList.meanSquare {v : X → List ℝ} (h : ContList v) :
    Continuous fun x => ((v x).map fun t => t ^ 2).sum / ((v x).length : ℝ) := by
  obtain ⟨fs, hc, e⟩ := h
  simp only [e, List.length_map]
  refine Continuous.div_const ?_ _
  clear e
  induction fs with
  | nil => simpa using continuous_const
  | cons f fs ih =>
    simp only [List.map_cons, List.sum_cons]
    exact ((hc f (by simp)).pow 2).add (ih fun g hg => hc g (by simp [hg]))

theorem cont_nu (ln : Bool) (net : TauNet) {v : X → List ℝ} (hv : ContList v) : Continuous fun x => (net.setVec ln (v x)).nu := by
  have : (fun x => (net.setVec ln (v x)).nu) = fun x => if ln then (v x).getD (net.linears.map List.flatten).flatten.length
      net.nu else net.nu := by
    funext x
    simp only [TauNet.setVec, List.headD_eq_head?_getD, List.head?_drop, List.getD_eq_getElem?_getD]
  rw [this]
  cases ln
  · exact continuous_const
  · exact hv.getD _ _

theorem cont_netMeanSquare (s : OPS) (ln : Bool) {v : X → List ℝ} (hv : ContList v) :
    Continuous fun x => Spec.netMeanSquare ln (s.setVec ln (v x)) := by
  unfold Spec.netMeanSquare OPS.setVec
  rcases s.kind with _ | _ | _ | _ | net
  · exact continuous_const
  · exact continuous_const
  · exact continuous_const
  · exact continuous_const
  · simp only
    refine ContList.meanSquare (v := fun x => (net.setVec ln ((v x).drop s.headLen)).paramVec ln) ?_
    unfold TauNet.paramVec
    refine (cont_fillMats net.linears (hv.drop s.headLen)).flatten.append ?_
    cases ln
    · simpa using contList_nil
    · simp only [if_true]
      exact ⟨[fun x => (net.setVec true ((v x).drop s.headLen)).nu], by simpa using cont_nu true net (hv.drop s.headLen),
        fun x => rfl⟩

/-! ### Continuity of the objective -/

theorem forward_cell_pos (s : OPS) (hp : s.params.LifetimeFinite) (hg : s.grid.Pairwise (· < ·)) (h2 : 2 ≤ s.grid.length)
    {n : ℕ} {k : ℕ → ℝ} (hk : ∀ j < n, 0 < k j) {i j : ℕ} (hi : i < 3) (hj : j < n) :
    0 < Spec.cell (OPS.forward ((List.range n).map k) s).1 i j := by
  have hj' : j < ((List.range n).map k).length := by simpa using hj
  have e : ((List.range n).map k)[j] = k j := by simp
  rw [forward_cell_floor _ s hp (by omega) (by omega) hj' (by rw [e]; exact (hk j hj).ne')]
  simp only [e]
  have hw := gridWidth_pos hg h2
  refine mul_pos (hk j hj) (lt_of_lt_of_le ?_ (quad23_ge (c := 1e-12) (hg.imp le_of_lt) (hg.imp le_of_lt) fun x _ y _ =>
    le_max_right _ _))
  positivity

theorem cont_fitCoherence (phys : PhysCfg) (s : OPS) (ln : Bool) {v : X → List ℝ} (hv : ContList v)
    (hs : ∀ x, (s.setVec ln (v x)).Sound) {g : List ℝ} (hg : g.Pairwise (· < ·)) (h2 : 2 ≤ g.length) (h0 : 0 < phys.factor)
    (h1 : 0 < phys.Uref) (c : Comp3) (r f : ℝ) :
    Continuous fun x => Spec.fitCoherence phys g (s.setVec ln (v x)).params c r f := by
  unfold Spec.fitCoherence
  split_ifs with h
  · have hf : 0 < f := lt_trans (by norm_num) h
    have hk : 0 < phys.factor * f / phys.Uref := by positivity
    have hw := gridWidth_pos hg h2
    have hd : ∀ k2 k3, Continuous fun x => Spec.cohDensity (s.setVec ln (v x)).params c (phys.factor * f / phys.Uref) k2 k3 :=
      fun k2 k3 => (fitTensor_param s ln hv hs hk.ne' k2 k3 _ _).max continuous_const
    refine Continuous.div ((Continuous.pow (cont_quad23 fun y _ z _ => (hd y z).mul continuous_const) 2).add
      (Continuous.pow (cont_quad23 fun y _ z _ => (hd y z).mul continuous_const) 2))
      (Continuous.pow (cont_quad23 fun y _ z _ => hd y z) 2) fun x => ?_
    have hq : 0 < quad23 g g (Spec.cohDensity (s.setVec ln (v x)).params c (phys.factor * f / phys.Uref)) := by
      refine lt_of_lt_of_le ?_ (quad23_ge (c := 1e-32) (hg.imp le_of_lt) (hg.imp le_of_lt) fun x _ y _ => ?_)
      · positivity
      · exact le_max_right _ _
    exact (pow_pos hq 2).ne'
  · exact continuous_const

theorem cont_mean2 {m n : ℕ} {f : X → ℕ → ℕ → ℝ} (h : ∀ i < m, ∀ j < n, Continuous fun x => f x i j) :
    Continuous fun x => Spec.mean2 m n (f x) := by
  unfold Spec.mean2
  exact (continuous_finsetSum _ fun i hi => continuous_finsetSum _ fun j hj =>
    h i (Finset.mem_range.1 hi) j (Finset.mem_range.1 hj)).div_const _

theorem cont_objective (cfg : TrainCfg) {n : ℕ} {k : ℕ → ℝ} (hk : ∀ j < n, 0 < k j)
    {t : ℕ → ℕ → ℝ} {a b : ℕ} {r f : ℕ → ℝ} {D : Fin 3 → ℕ → ℕ → ℝ} (s : OPS) (hg : s.grid.Pairwise (· < ·))
    (h2 : 2 ≤ s.grid.length) (hcoh : Spec.cohSetting cfg s.cohGrid a b r f D) (ln : Bool) (hln : cfg.prob.learnNu = ln)
    {v : X → List ℝ} (hv : ContList v) (hs : ∀ x, (s.setVec ln (v x)).Sound) :
    Continuous fun x => Spec.objective cfg n k t a b r f D (s.setVec ln (v x)) := by
  have hpos : ∀ i < 3, ∀ j < n, ∀ x, 0 < Spec.cell (OPS.forward ((List.range n).map k) (s.setVec ln (v x))).1 i j :=
    fun i hi j hj x => forward_cell_pos _ (hs x).finite hg h2 hk hi hj
  have hy : ∀ i < 3, ∀ j < n, Continuous fun x => Spec.cell (OPS.forward ((List.range n).map k) (s.setVec ln (v x))).1 i j := by
    intro i hi j hj
    have hj' : j < ((List.range n).map k).length := by simpa using hj
    have e : ((List.range n).map k)[j] ≠ 0 := by simpa using (hk j hj).ne'
    have : ∀ x, Spec.cell (OPS.forward ((List.range n).map k) (s.setVec ln (v x))).1 i j = ((List.range n).map k)[j] *
        quad23 s.grid s.grid fun k2 k3 => max (Spec.fitTensor (s.setVec ln (v x)).params ((List.range n).map k)[j] k2 k3
          (Spec.rowEntry i).1 (Spec.rowEntry i).2) 1e-12 := fun x =>
      forward_cell_floor _ _ (hs x).finite (by omega) (by omega) hj' e
    simp only [this]
    exact continuous_const.mul (cont_quad23 fun y _ z _ => (fitTensor_param s ln hv hs e y z _ _).max continuous_const)
  have hl : ∀ i < 3, ∀ j < n, Continuous fun x =>
      Real.log |Spec.cell (OPS.forward ((List.range n).map k) (s.setVec ln (v x))).1 i j| := fun i hi j hj =>
    (hy i hi j hj).abs.log fun x => (abs_pos.2 (hpos i hi j hj x).ne').ne'
  have hsl : ∀ i < 3, ∀ j, j + 1 < n → Continuous fun x =>
      Spec.logSlope k (fun j => Spec.cell (OPS.forward ((List.range n).map k) (s.setVec ln (v x))).1 i j) j := by
    intro i hi j hj
    unfold Spec.logSlope
    exact ((hl i hi _ hj).sub (hl i hi j (by omega))).div_const _
  unfold Spec.objective
  simp only
  refine ((((cont_mean2 fun i hi j hj => ?_).add ?_).add ?_).add ?_).add ?_
  · exact ((hl i hi j hj).sub continuous_const).pow 2
  · rcases hcoh with h | ⟨g', hg', hs', h2', ha, hb, hf, hU, hc⟩
    · rw [h]; exact continuous_const
    · rw [hc]
      simp only [Option.isSome_some, if_true]
      refine continuous_const.mul (Continuous.div_const (continuous_finsetSum _ fun c _ => cont_mean2 fun i hi j hj => ?_) _)
      refine ((?_ : Continuous _).sub continuous_const).pow 2
      have e : ∀ x, ((s.setVec ln (v x)).cohGrid.getD []) = g' := fun x => by
        have : (s.setVec ln (v x)).cohGrid = s.cohGrid := rfl
        rw [this, hg']; rfl
      simp only [e]
      exact cont_fitCoherence cfg.phys s ln hv hs hs' h2' hf hU _ _ _
  · refine (continuous_const.mul (cont_mean2 fun i hi j hj => ?_)).div_const _
    exact ((hsl i hi j (by omega)).max continuous_const).pow 2
  · refine (continuous_const.mul (cont_mean2 fun i hi j hj => ?_)).div_const _
    refine (Continuous.max ?_ continuous_const).pow 2
    unfold Spec.logCurvature
    exact ((hsl i hi _ (by omega)).sub (hsl i hi j (by omega))).div_const _
  · rw [hln]
    exact continuous_const.mul (cont_netMeanSquare s ln hv)

end

/-! ### The closure evaluates the objective -/

/-- The setting of the theorems: three components, at least three ascending wavenumbers, data without zeros. -/
structure Spec.FitSetting (cfg : TrainCfg) (n : ℕ) (k : ℕ → ℝ) (t : ℕ → ℕ → ℝ) : Prop where
  nc : cfg.prob.nc = 3
  n3 : 3 ≤ n
  asc : Spec.Ascending n k
  k1s : cfg.k1s = (List.range n).map k
  target : cfg.target = Spec.table 3 n fun i j => fin (t i j)
  t0 : ∀ i < 3, ∀ j < n, t i j ≠ 0
  zref : cfg.phys.zref ≠ 0

theorem closure_objective (cfg : TrainCfg) {n : ℕ} {k : ℕ → ℝ} {t : ℕ → ℕ → ℝ} (hF : Spec.FitSetting cfg n k t) {a b : ℕ}
    {r f : ℕ → ℝ} {D : Fin 3 → ℕ → ℕ → ℝ} (st : TrainState) (hg : st.ops.grid.Pairwise (· < ·))
    (h2 : 2 ≤ st.ops.grid.length) (hcoh : Spec.cohSetting cfg st.ops.cohGrid a b r f D) (θ : List ℝ)
    (hp : (st.ops.setVec cfg.prob.learnNu θ).params.LifetimeFinite)
    (hreg : 0 < cfg.loss.betaReg → ∃ net, (st.ops.setVec cfg.prob.learnNu θ).kind = .taunet net ∧
      net.paramVec cfg.prob.learnNu ≠ []) :
    (closure cfg θ st).1 = .ok (fin (Spec.objective cfg n k t a b r f D (st.ops.setVec cfg.prob.learnNu θ))) := by
  set s := st.ops.setVec cfg.prob.learnNu θ with hs
  have hk := hF.asc.1
  obtain ⟨y, hy, hy3⟩ := forward_take_table s hp n hk
  have hsame := forward_same ((List.range n).map k) s
  have hpos : ∀ i < 3, ∀ j < n, Spec.cell (OPS.forward ((List.range n).map k) s).1 i j ≠ 0 :=
    fun i hi j hj => (forward_cell_pos s hp hg h2 hk hi hj).ne'
  unfold closure
  simp only [hF.k1s, ← hs]
  rcases hfw : OPS.forward ((List.range n).map k) s with ⟨res, ops⟩
  rw [hfw] at hy hsame hy3 hpos
  simp only at hy hsame
  subst hy
  simp only
  set Y := fun i j => Spec.cell (.ok y) i j with hY
  have hparams : ops.params = s.params := (params_congr hsame.1 hsame.2.1.symm hsame.2.2.1.symm hsame.2.2.2.1.symm).symm
  -- the coherence dictionary
  obtain ⟨coh, ops', hcc, hkind, hcterm⟩ : ∃ coh ops', closureCoherence cfg ops = (.ok coh, ops') ∧ ops'.kind = s.kind ∧
      ∀ Y' T θ', cohTerm cfg.loss ⟨Y', T, θ', coh⟩ = .ok (fin (if cfg.coh.isSome then max cfg.loss.gammaCoherence 0 *
        Spec.coherenceMisfit a b (fun c i j => Spec.fitCoherence cfg.phys (s.cohGrid.getD []) s.params
          (![Comp3.u, Comp3.v, Comp3.w] c) (r i) (f j)) D else 0)) := by
    rcases hcoh with h | ⟨g', hg', hs', h2', ha, hb, hf, hU, hc⟩
    · refine ⟨none, ops, by unfold closureCoherence; rw [h], hsame.1.kind.symm, fun Y' T θ' => ?_⟩
      unfold cohTerm
      simp [h]
    · have hgrid : ops.cohGridUsed = g' := by
        unfold OPS.cohGridUsed
        rw [hsame.2.2.2.2]
        have : s.cohGrid = st.ops.cohGrid := rfl
        rw [this, hg']; rfl
      have hgrid' : s.cohGrid.getD [] = g' := by
        have : s.cohGrid = st.ops.cohGrid := rfl
        rw [this, hg']; rfl
      have h45 := (C45_fill cfg.phys ((List.range b).map f) ((List.range a).map r) ops).1
      rcases hm : computeModelCoherence cfg.phys ((List.range b).map f) ((List.range a).map r) ops with ⟨res, ops'⟩
      have hk' : ops'.kind = ops.kind := by
        have hcs := coherence_same ((((List.range b).map f).filter fun f => decide (1e-6 < f)).map fun f =>
          cfg.phys.factor * f / cfg.phys.Uref) ((List.range a).map r) ops
        unfold computeModelCoherence at hm
        simp only at hm
        rcases hsc : OPS.SpectralCoherence ((((List.range b).map f).filter fun f => decide (1e-6 < f)).map fun f =>
          cfg.phys.factor * f / cfg.phys.Uref) ((List.range a).map r) ops with ⟨res', ops''⟩
        rw [hsc] at hm hcs
        rcases res' with e | m
        · simp only [Prod.mk.injEq] at hm
          rw [← hm.2]; exact hcs.1.kind.symm
        · simp only [Prod.mk.injEq] at hm
          rw [← hm.2]; exact hcs.1.kind.symm
      rw [hm] at h45
      simp only at h45
      have htab : ∀ c, ((List.range a).map r).map (fun r => ((List.range b).map f).map fun f =>
          open Classical in if 1e-6 < f then cohEntry ops.params ops.cohGridUsed ops.cohGridUsed c
            (cfg.phys.factor * f / cfg.phys.Uref) r else fin 1) =
          Spec.table a b fun i j => fin (Spec.fitCoherence cfg.phys g' s.params c (r i) (f j)) := by
        intro c
        unfold Spec.table
        rw [List.map_map]
        apply List.map_congr_left
        intro i _
        simp only [Function.comp_apply, List.map_map]
        apply List.map_congr_left
        intro j _
        simp only [Function.comp_apply]
        rw [hgrid, hparams]
        exact cohEntry_value cfg.phys s hp hs' h2' hf hU c (r i) (f j)
      subst h45
      refine ⟨some (Spec.cohTables a b (fun c i j => Spec.fitCoherence cfg.phys g' s.params
          (![Comp3.u, Comp3.v, Comp3.w] c) (r i) (f j)) D), ops', ?_, hk'.trans hsame.1.kind.symm, fun Y' T θ' => ?_⟩
      · unfold closureCoherence
        rw [hc]
        simp only [hm, List.map_cons, List.map_nil, List.getD_cons_zero, List.getD_cons_succ, htab]
        rfl
      · unfold cohTerm
        rw [hc, hgrid']
        simp only [Option.isSome_some, if_true]
        by_cases h : 0 < cfg.loss.gammaCoherence
        · rw [if_pos h, coherenceLoss_table cfg.loss ha hb, max_eq_left h.le]
        · rw [if_neg h, max_eq_right (not_lt.1 h), zero_mul]
  rw [hcc]
  simp only
  have hnc : cfg.prob.nc.toNat = 3 := by rw [hF.nc]; rfl
  rw [hnc, hy3, hF.target]
  set A : EvalArgs := ⟨Spec.table 3 n fun i j => fin (Y i j), Spec.table 3 n fun i j => fin (t i j), genTheta cfg ops', coh⟩ with hA
  have e1 : mseTerm A.y A.yData = .ok (fin (Spec.tableMisfit 3 n Y t)) :=
    mseTerm_table (by norm_num) (by have := hF.n3; omega) hpos hF.t0
  have e2 := hcterm A.y A.yData A.theta
  have e3 : pen1Term cfg.loss ((List.range n).map k) cfg.phys.zref A =
      .ok (fin (max cfg.loss.alphaPen1 0 * Spec.slopePenalty 3 n k Y / cfg.phys.zref)) := by
    unfold pen1Term
    by_cases h : 0 < cfg.loss.alphaPen1
    · rw [if_pos h, max_eq_left h.le]
      exact pen1_table cfg.loss (by norm_num) (by have := hF.n3; omega) hF.asc hF.zref hpos
    · rw [if_neg h, max_eq_right (not_lt.1 h), zero_mul, zero_div]
  have e4 : pen2Term cfg.loss ((List.range n).map k) cfg.phys.zref A =
      .ok (fin (max cfg.loss.alphaPen2 0 * Spec.curvaturePenalty 3 n k Y / cfg.phys.zref ^ 2)) := by
    unfold pen2Term
    by_cases h : 0 < cfg.loss.alphaPen2
    · rw [if_pos h, max_eq_left h.le]
      exact pen2_table cfg.loss (by norm_num) hF.n3 hF.asc hF.zref hpos
    · rw [if_neg h, max_eq_right (not_lt.1 h), zero_mul, zero_div]
  have e5 : regTerm cfg.loss A = .ok (fin (max cfg.loss.betaReg 0 * Spec.netMeanSquare cfg.prob.learnNu s)) := by
    unfold regTerm
    by_cases h : 0 < cfg.loss.betaReg
    · obtain ⟨net, hnet, hne⟩ := hreg h
      have hth : A.theta = .vec ((net.paramVec cfg.prob.learnNu).map fin) := by
        simp only [hA, genTheta, hkind, hnet]
      rw [hth]
      simp only
      rw [if_pos h, regularization_list cfg.loss hne, max_eq_left h.le]
      simp only [Spec.netMeanSquare, hnet]
    · rw [max_eq_right (not_lt.1 h), zero_mul]
      simp only [if_neg h]
      cases A.theta <;> rfl
  have hev := (evalTerms_ok (v := ⟨_, _, _, _, _⟩)).2 ⟨e1, e2, e3, e4, e5⟩
  have hl : (lossEval cfg.loss ((List.range n).map k) cfg.phys.zref A st.agg).1 = .ok (fin (Spec.tableMisfit 3 n Y t +
      (if cfg.coh.isSome then max cfg.loss.gammaCoherence 0 *
        Spec.coherenceMisfit a b (fun c i j => Spec.fitCoherence cfg.phys (s.cohGrid.getD []) s.params
          (![Comp3.u, Comp3.v, Comp3.w] c) (r i) (f j)) D else 0) +
      max cfg.loss.alphaPen1 0 * Spec.slopePenalty 3 n k Y / cfg.phys.zref +
      max cfg.loss.alphaPen2 0 * Spec.curvaturePenalty 3 n k Y / cfg.phys.zref ^ 2 +
      max cfg.loss.betaReg 0 * Spec.netMeanSquare cfg.prob.learnNu s)) := by
    unfold lossEval
    rw [hev]
    simp only [fin_add_fin]
  rcases hle : lossEval cfg.loss ((List.range n).map k) cfg.phys.zref A st.agg with ⟨res, agg⟩
  rw [hle] at hl
  simp only at hl
  subst hl
  simp only [Spec.objective, hfw, hY]

/-! ### C102 -/

/-- **C102** The training objective is a continuous function of the parameter vector: with three components (and with or
without coherence data, slope and curvature penalties and regularisation), on every set of parameters at which the lifetime model
is sound every evaluation of the closure succeeds, and its value is the written-out objective, which is continuous there. -/
theorem C102_objective (cfg : TrainCfg) {n : ℕ} {k : ℕ → ℝ} {t : ℕ → ℕ → ℝ} (hF : Spec.FitSetting cfg n k t) {a b : ℕ}
    {r f : ℕ → ℝ} {D : Fin 3 → ℕ → ℕ → ℝ} (st : TrainState) (hg : st.ops.grid.Pairwise (· < ·))
    (h2 : 2 ≤ st.ops.grid.length) (hcoh : Spec.cohSetting cfg st.ops.cohGrid a b r f D) {d : ℕ} (U : Set (Fin d → ℝ))
    (hs : ∀ θ ∈ U, (st.ops.setVec cfg.prob.learnNu (List.ofFn θ)).Sound)
    (hreg : 0 < cfg.loss.betaReg → ∀ θ ∈ U, ∃ net, (st.ops.setVec cfg.prob.learnNu (List.ofFn θ)).kind = .taunet net ∧
      net.paramVec cfg.prob.learnNu ≠ []) :
    (∀ θ ∈ U, (closure cfg (List.ofFn θ) st).1 =
      .ok (fin (Spec.objective cfg n k t a b r f D (st.ops.setVec cfg.prob.learnNu (List.ofFn θ))))) ∧
    ContinuousOn (fun θ => Spec.objective cfg n k t a b r f D (st.ops.setVec cfg.prob.learnNu (List.ofFn θ))) U := by
  refine ⟨fun θ hθ => closure_objective cfg hF st hg h2 hcoh _ (hs θ hθ).finite fun h => hreg h θ hθ, ?_⟩
  rw [continuousOn_iff_continuous_restrict]
  have hv : ContList fun θ : U => List.ofFn θ.1 := ContList.ofFn.comp continuous_subtype_val
  exact cont_objective cfg hF.asc.1 st.ops hg h2 hcoh _ rfl hv fun θ => hs θ.1 θ.2

/-- **C102** Hence on every compact set of such parameters there is a best parameter vector. -/
theorem C102_attained (cfg : TrainCfg) {n : ℕ} {k : ℕ → ℝ} {t : ℕ → ℕ → ℝ} (hF : Spec.FitSetting cfg n k t) {a b : ℕ}
    {r f : ℕ → ℝ} {D : Fin 3 → ℕ → ℕ → ℝ} (st : TrainState) (hg : st.ops.grid.Pairwise (· < ·))
    (h2 : 2 ≤ st.ops.grid.length) (hcoh : Spec.cohSetting cfg st.ops.cohGrid a b r f D) {d : ℕ} {U : Set (Fin d → ℝ)}
    (hU : IsCompact U) (hne : U.Nonempty) (hs : ∀ θ ∈ U, (st.ops.setVec cfg.prob.learnNu (List.ofFn θ)).Sound)
    (hreg : 0 < cfg.loss.betaReg → ∀ θ ∈ U, ∃ net, (st.ops.setVec cfg.prob.learnNu (List.ofFn θ)).kind = .taunet net ∧
      net.paramVec cfg.prob.learnNu ≠ []) :
    ∃ θ₀ ∈ U, ∃ x₀, (closure cfg (List.ofFn θ₀) st).1 = .ok (fin x₀) ∧
      ∀ θ ∈ U, ∃ x, (closure cfg (List.ofFn θ) st).1 = .ok (fin x) ∧ x₀ ≤ x := by
  obtain ⟨h, hc⟩ := C102_objective cfg hF st hg h2 hcoh U hs hreg
  obtain ⟨θ₀, h0, hmin⟩ := hU.exists_isMinOn hne hc
  exact ⟨θ₀, h0, _, h θ₀ h0, fun θ hθ => ⟨_, h θ hθ, hmin hθ⟩⟩

theorem softCut_near {eps : ℝ} (he : 0 < eps) (x : ℝ) : |softCut eps x + eps * (SignType.sign x : ℝ) - x| ≤ eps := by
  unfold softCut
  rw [abs_le]
  rcases lt_trichotomy x 0 with h | h | h
  · rw [sign_neg h]
    simp only [SignType.neg_eq_neg_one, SignType.coe_neg, SignType.coe_one]
    rw [max_eq_right (by linarith : x - eps ≤ 0)]
    rcases max_cases (-x - eps) 0 with ⟨e, _⟩ | ⟨e, _⟩ <;> rw [e] <;> constructor <;> linarith
  · subst h
    rw [sign_zero]
    simp [he.le]
  · rw [sign_pos h]
    simp only [SignType.pos_eq_one, SignType.coe_one]
    rw [max_eq_right (by linarith : -x - eps ≤ 0)]
    rcases max_cases (x - eps) 0 with ⟨e, _⟩ | ⟨e, _⟩ <;> rw [e] <;> constructor <;> linarith

/-- **C102** The jumps of uw are small: the prediction stays within `|k1| * 1e-12 * width ^ 2` of a continuous function of the
parameters. -/
theorem C102_cross_near (s : OPS) (ln : Bool) (hg : s.grid.Pairwise (· ≤ ·)) {n : ℕ} (U : Set (Fin n → ℝ))
    (hs : ∀ θ ∈ U, (s.setVec ln (List.ofFn θ)).Sound) (k1s : List ℝ) {j : ℕ} (hj : j < k1s.length) (hk : k1s[j] ≠ 0) :
    ∃ G : (Fin n → ℝ) → ℝ, ContinuousOn G U ∧ ∀ θ ∈ U,
      |Spec.cell (OPS.forward k1s (s.setVec ln (List.ofFn θ))).1 3 j - G θ| ≤
        |k1s[j]| * (1e-12 * gridWidth s.grid * gridWidth s.grid) := by
  refine ⟨fun θ => k1s[j] * quad23 s.grid s.grid fun k2 k3 =>
    Spec.fitTensor (s.setVec ln (List.ofFn θ)).params k1s[j] k2 k3 0 2, ?_, fun θ hθ => ?_⟩
  · rw [continuousOn_iff_continuous_restrict]
    have hv : ContList fun θ : U => List.ofFn θ.1 := ContList.ofFn.comp continuous_subtype_val
    exact continuous_const.mul (cont_quad23 fun y _ z _ => fitTensor_param s ln hv (fun θ => hs θ.1 θ.2) hk y z 0 2)
  · set o := s.setVec ln (List.ofFn θ) with ho
    set f := fun k2 k3 => Spec.fitTensor o.params k1s[j] k2 k3 0 2 with hf
    have e : Spec.cell (OPS.forward k1s o).1 3 j = k1s[j] * quad23 s.grid s.grid fun k2 k3 =>
        softCut 1e-12 (f k2 k3) + 1e-12 * (SignType.sign (f k2 k3) : ℝ) := by
      refine (forward_cell k1s o (i := 3) (by norm_num) hj).trans ?_
      have : (quad23 o.grid o.grid fun k2 k3 => (phiSelectors[3]'(by decide)) (opsPhi o.params ⟨k1s[j], k2, k3⟩)) =
          fin (quad23 s.grid s.grid fun k2 k3 => softCut 1e-12 (f k2 k3) + 1e-12 * (SignType.sign (f k2 k3) : ℝ)) :=
        quad23_fin fun y _ z _ => opsPhi_cross o.params (hs θ hθ).finite hk y z
      refine (congrArg (fun q => (fin k1s[j] * q).toReal) this).trans ?_
      simp only [fin_mul_fin, toReal_fin]
    rw [e, ← mul_sub, ← quad23_sub, abs_mul]
    refine mul_le_mul_of_nonneg_left ?_ (abs_nonneg _)
    have hn := fun y z => abs_le.1 (softCut_near (eps := 1e-12) (by norm_num) (f y z))
    rw [abs_le]
    constructor
    · have := quad23_ge (c := -1e-12) hg hg fun y _ z _ => (hn y z).1
      linarith
    · have h1 := quad23_ge (c := -1e-12) (f := fun y z => f y z - (softCut 1e-12 (f y z) + 1e-12 * (SignType.sign (f y z) : ℝ)))
        hg hg fun y _ z _ => by have := (hn y z).2; linarith
      rw [quad23_sub] at h1 ⊢
      linarith

/-- A setting with data, wavenumbers 1, 2, 3 and both penalties on, for which every parameter vector is sound. -/
def exampleCfg : TrainCfg where
  prob := ⟨3, 1e-3, 1, false, .const, false, true, 4, 17 / 6⟩
  phys := ⟨1, 1, 1, 1, 1, 1, 1⟩
  loss := ⟨1, 1, 0, 0⟩
  k1s := (List.range 3).map fun j : ℕ => (j : ℝ) + 1
  target := Spec.table 3 3 fun _ _ => fin 1
  coh := none

example : Spec.FitSetting exampleCfg 3 (fun j => (j : ℝ) + 1) fun _ _ => 1 :=
  ⟨rfl, le_rfl, ⟨fun j _ => by positivity, fun j _ => by push_cast; linarith⟩, rfl, rfl, fun _ _ _ _ => one_ne_zero,
    one_ne_zero⟩

example (s : OPS) (hk : s.kind = .const) (d : ℕ) : ∀ θ ∈ (Set.univ : Set (Fin d → ℝ)), (s.setVec false (List.ofFn θ)).Sound := by
  intro θ _
  simp [OPS.Sound, OPS.setVec, hk]

example {p1 p2 : ℝ} (h : p1 < p2) : (opsGrid p1 p2 5).Pairwise (· < ·) ∧ 2 ≤ (opsGrid p1 p2 5).length :=
  ⟨opsGrid_sorted h 5, by rw [opsGrid_length]; norm_num⟩

end
end Verif
