import Verif.Props.FitUnits
import Verif.Props.ObjectiveHistory

/-!
# The magnitude of a fit: C131
-/

namespace Verif
open Fl Filter Topology Verif.Spec

noncomputable section
open Classical

/-! ### Specification -/

/-- The object with its magnitude multiplied by `exp d`. -/
def OPS.louder (d : ℝ) (s : OPS) : OPS := { s with logM := s.logM + d }

/-- The part of the prediction for component `i` that comes from nodes at which the floor acts. -/
def Spec.floorPart (s : OPS) (i : ℕ) (k1 : ℝ) : ℝ :=
  k1 * quad23 s.grid s.grid fun y z =>
    if Spec.fitTensor s.params k1 y z (Spec.rowEntry i).1 (Spec.rowEntry i).2 ≤ 1e-12 then 1e-12 else 0

/-- Predicted spectrum of component `i` at the `j`th wavenumber. -/
def Spec.predicted (s : OPS) (n : ℕ) (k : ℕ → ℝ) (i j : ℕ) : ℝ := Spec.cell (OPS.forward ((List.range n).map k) s).1 i j

/-- The share of the prediction that is due to the floor. -/
def Spec.floorShare (s : OPS) (n : ℕ) (k : ℕ → ℝ) (i j : ℕ) : ℝ := Spec.floorPart s i (k j) / Spec.predicted s n k i j

/-- Logarithm of the ratio of prediction and data. -/
def Spec.logRatio (s : OPS) (n : ℕ) (k : ℕ → ℝ) (t : ℕ → ℕ → ℝ) (i j : ℕ) : ℝ :=
  Real.log (Spec.predicted s n k i j / |t i j|)

/-! ### The parameter vector -/

theorem louder_setVec (s : OPS) (ln : Bool) {θ : List ℝ} (h : 3 ≤ θ.length) (d : ℝ) :
    s.setVec ln (θ.set 2 (θ[2] + d)) = (s.setVec ln θ).louder d := by
  have e0 : ∀ x, (θ.set 2 (θ[2] + d)).getD 0 x = θ.getD 0 x := fun x => by simp [List.getD_eq_getElem?_getD]
  have e1 : ∀ x, (θ.set 2 (θ[2] + d)).getD 1 x = θ.getD 1 x := fun x => by simp [List.getD_eq_getElem?_getD]
  have e2 : ∀ x, (θ.set 2 (θ[2] + d)).getD 2 x = θ.getD 2 x + d := fun x => by
    have h' : 2 < θ.length := by omega
    simp [List.getD_eq_getElem?_getD, h']
  have e3 : ∀ x, (θ.set 2 (θ[2] + d)).getD 3 x = θ.getD 3 x := fun x => by simp [List.getD_eq_getElem?_getD]
  have e4 : ∀ x, (θ.set 2 (θ[2] + d)).getD 4 x = θ.getD 4 x := fun x => by simp [List.getD_eq_getElem?_getD]
  have hd : (θ.set 2 (θ[2] + d)).drop s.headLen = θ.drop s.headLen := by
    refine List.drop_set_of_lt ?_
    unfold OPS.headLen
    split <;> norm_num
  unfold OPS.setVec OPS.louder
  simp only [e0, e1, e2, e3, e4, hd]

theorem louder_params (d : ℝ) (s : OPS) : (s.louder d).params = { s.params with logM := s.params.logM + d } := by
  unfold OPS.params OPS.louder OPS.initApprox OPS.ty
  cases s.kind <;> rfl

theorem louder_finite {d : ℝ} {s : OPS} (h : s.params.LifetimeFinite) : (s.louder d).params.LifetimeFinite := by
  rw [louder_params]; exact h

theorem louder_tensor (d : ℝ) (s : OPS) (k1 y z : ℝ) (i j : Fin 3) :
    Spec.fitTensor (s.louder d).params k1 y z i j = Real.exp d * Spec.fitTensor s.params k1 y z i j := by
  rw [louder_params, fitTensor_magnitude s.params _ s.params.logM]
  congr 2
  ring

/-! ### The predictions -/

theorem predicted_eq (s : OPS) (hp : s.params.LifetimeFinite) {n : ℕ} {k : ℕ → ℝ} {i j : ℕ} (hi : i < 3) (hj : j < n)
    (hk : 0 < k j) : Spec.predicted s n k i j = k j * quad23 s.grid s.grid fun y z =>
      max (Spec.fitTensor s.params (k j) y z (Spec.rowEntry i).1 (Spec.rowEntry i).2) 1e-12 := by
  have hj' : j < ((List.range n).map k).length := by simpa using hj
  have e : ((List.range n).map k)[j] = k j := by simp
  unfold Spec.predicted
  rw [forward_cell_floor _ s hp (by omega) (by omega) hj' (by rw [e]; exact hk.ne'), e]

theorem predicted_louder (s : OPS) (hp : s.params.LifetimeFinite) {n : ℕ} {k : ℕ → ℝ} {i j : ℕ} (hi : i < 3) (hj : j < n)
    (hk : 0 < k j) (d : ℝ) : Spec.predicted (s.louder d) n k i j = k j * quad23 s.grid s.grid fun y z =>
      max (Real.exp d * Spec.fitTensor s.params (k j) y z (Spec.rowEntry i).1 (Spec.rowEntry i).2) 1e-12 := by
  rw [predicted_eq _ (louder_finite hp) hi hj hk]
  simp only [louder_tensor]
  rfl

theorem quad23_mono {g : List ℝ} (hg : g.Pairwise (· < ·)) {f f' : ℝ → ℝ → ℝ} (h : ∀ x ∈ g, ∀ y ∈ g, f x y ≤ f' x y) :
    quad23 g g f ≤ quad23 g g f' := by
  have hg' := hg.imp (fun h => le_of_lt h)
  have := quad23_ge (c := 0) (f := fun x y => f' x y - f x y) hg' hg' fun x hx y hy => sub_nonneg.2 (h x hx y hy)
  rw [quad23_sub] at this
  linarith

theorem predicted_pos (s : OPS) (hp : s.params.LifetimeFinite) (hg : s.grid.Pairwise (· < ·)) (h2 : 2 ≤ s.grid.length) {n : ℕ}
    {k : ℕ → ℝ} (hk : ∀ j < n, 0 < k j) {i j : ℕ} (hi : i < 3) (hj : j < n) : 0 < Spec.predicted s n k i j :=
  forward_cell_pos s hp hg h2 hk hi hj

/-- The floor share lies between 0 and 1. -/
theorem floorShare_mem (s : OPS) (hp : s.params.LifetimeFinite) (hg : s.grid.Pairwise (· < ·)) (h2 : 2 ≤ s.grid.length) {n : ℕ}
    {k : ℕ → ℝ} (hk : ∀ j < n, 0 < k j) {i j : ℕ} (hi : i < 3) (hj : j < n) :
    0 ≤ Spec.floorShare s n k i j ∧ Spec.floorShare s n k i j ≤ 1 := by
  have hy := predicted_pos s hp hg h2 hk hi hj
  have hkj := hk j hj
  have hg' := hg.imp (fun h => le_of_lt h)
  have h0 : 0 ≤ Spec.floorPart s i (k j) := by
    unfold Spec.floorPart
    have := quad23_ge (c := 0) (f := fun y z =>
      if Spec.fitTensor s.params (k j) y z (Spec.rowEntry i).1 (Spec.rowEntry i).2 ≤ 1e-12 then (1e-12 : ℝ) else 0) hg' hg'
      fun x _ y _ => by split <;> norm_num
    simp only [zero_mul] at this
    exact mul_nonneg hkj.le this
  refine ⟨div_nonneg h0 hy.le, (div_le_one hy).2 ?_⟩
  rw [predicted_eq s hp hi hj hkj]
  unfold Spec.floorPart
  refine mul_le_mul_of_nonneg_left (quad23_mono hg fun y _ z _ => ?_) hkj.le
  split
  · exact le_max_right _ _
  · exact le_max_of_le_right (by norm_num)

/-- **C131** (growth).  Multiplying the magnitude by `exp d ≥ 1` multiplies every predicted auto-spectrum by at most that factor,
and by at least the factor for the share that is not due to the floor. -/
theorem C131_growth (s : OPS) (hp : s.params.LifetimeFinite) (hg : s.grid.Pairwise (· < ·)) (h2 : 2 ≤ s.grid.length) {n : ℕ}
    {k : ℕ → ℝ} (hk : ∀ j < n, 0 < k j) {i j : ℕ} (hi : i < 3) (hj : j < n) {d : ℝ} (hd : 0 ≤ d) :
    Spec.predicted (s.louder d) n k i j ≤ Real.exp d * Spec.predicted s n k i j ∧
    (Real.exp d - (Real.exp d - 1) * Spec.floorShare s n k i j) * Spec.predicted s n k i j ≤ Spec.predicted (s.louder d) n k i j := by
  have hy := predicted_pos s hp hg h2 hk hi hj
  have hkj := hk j hj
  have he : 1 ≤ Real.exp d := Real.one_le_exp hd
  constructor
  · rw [predicted_louder s hp hi hj hkj, predicted_eq s hp hi hj hkj, mul_left_comm, ← quad23_smul (c := Real.exp d)]
    refine mul_le_mul_of_nonneg_left (quad23_mono hg fun y _ z _ => ?_) hkj.le
    rw [mul_max_of_nonneg _ _ (by positivity)]
    refine max_le_max le_rfl ?_
    nlinarith
  · have e1 : (Real.exp d - (Real.exp d - 1) * Spec.floorShare s n k i j) * Spec.predicted s n k i j =
        Real.exp d * Spec.predicted s n k i j - (Real.exp d - 1) * Spec.floorPart s i (k j) := by
      unfold Spec.floorShare
      field_simp
    rw [e1, predicted_louder s hp hi hj hkj, predicted_eq s hp hi hj hkj]
    unfold Spec.floorPart
    rw [mul_left_comm, mul_left_comm (Real.exp d - 1), ← mul_sub, ← quad23_smul (c := Real.exp d),
      ← quad23_smul (c := Real.exp d - 1), ← quad23_sub]
    refine mul_le_mul_of_nonneg_left (quad23_mono hg fun y _ z _ => ?_) hkj.le
    generalize Spec.fitTensor s.params (k j) y z (Spec.rowEntry i).1 (Spec.rowEntry i).2 = x
    by_cases hx : x ≤ 1e-12
    · rw [if_pos hx, max_eq_right hx]
      refine le_max_of_le_right ?_
      linarith
    · rw [if_neg hx, max_eq_left (not_le.1 hx).le]
      refine le_max_of_le_left ?_
      linarith

/-! ### The derivative -/

theorem predicted_near (s : OPS) (hp : s.params.LifetimeFinite) {n : ℕ} {k : ℕ → ℝ} {i j : ℕ} (hi : i < 3) (hj : j < n)
    (hk : 0 < k j) (hoff : ∀ y ∈ s.grid, ∀ z ∈ s.grid,
      Spec.fitTensor s.params (k j) y z (Spec.rowEntry i).1 (Spec.rowEntry i).2 ≠ 1e-12) :
    ∀ᶠ d in 𝓝 (0 : ℝ), Spec.predicted (s.louder d) n k i j =
      Real.exp d * (Spec.predicted s n k i j - Spec.floorPart s i (k j)) + Spec.floorPart s i (k j) := by
  have key : ∀ y ∈ s.grid, ∀ z ∈ s.grid, ∀ᶠ d in 𝓝 (0 : ℝ),
      max (Real.exp d * Spec.fitTensor s.params (k j) y z (Spec.rowEntry i).1 (Spec.rowEntry i).2) 1e-12 =
      Real.exp d * (max (Spec.fitTensor s.params (k j) y z (Spec.rowEntry i).1 (Spec.rowEntry i).2) 1e-12 -
        (if Spec.fitTensor s.params (k j) y z (Spec.rowEntry i).1 (Spec.rowEntry i).2 ≤ 1e-12 then 1e-12 else 0)) +
        (if Spec.fitTensor s.params (k j) y z (Spec.rowEntry i).1 (Spec.rowEntry i).2 ≤ 1e-12 then 1e-12 else 0) := by
    intro y hy z hz
    have hne := hoff y hy z hz
    generalize Spec.fitTensor s.params (k j) y z (Spec.rowEntry i).1 (Spec.rowEntry i).2 = x at hne ⊢
    have hc : Tendsto (fun d : ℝ => Real.exp d * x) (𝓝 0) (𝓝 x) := by
      have : Continuous fun d : ℝ => Real.exp d * x := by fun_prop
      simpa using this.tendsto 0
    rcases lt_or_gt_of_ne hne with hx | hx
    · filter_upwards [hc.eventually_lt_const hx] with d hd
      rw [if_pos hx.le, max_eq_right hx.le, max_eq_right hd.le]
      ring
    · filter_upwards [hc.eventually_const_lt hx] with d hd
      rw [if_neg (not_le.2 hx), max_eq_left hx.le, max_eq_left hd.le]
      ring
  have hfin : Set.Finite {x | x ∈ s.grid} := List.finite_toSet s.grid
  have all := hfin.eventually_all.2 fun y hy => hfin.eventually_all.2 fun z hz => key y hy z hz
  filter_upwards [all] with d hd
  rw [predicted_louder s hp hi hj hk, predicted_eq s hp hi hj hk]
  unfold Spec.floorPart
  rw [← mul_sub, ← quad23_sub, mul_left_comm, ← mul_add, ← quad23_smul (c := Real.exp d), ← quad23_add]
  congr 1
  unfold quad23
  exact trapz_congr fun y hy => trapz_congr fun z hz => hd y hy z hz

theorem predicted_deriv (s : OPS) (hp : s.params.LifetimeFinite) (hg : s.grid.Pairwise (· < ·)) (h2 : 2 ≤ s.grid.length) {n : ℕ}
    {k : ℕ → ℝ} (hk : ∀ j < n, 0 < k j) {i j : ℕ} (hi : i < 3) (hj : j < n) (hoff : ∀ y ∈ s.grid, ∀ z ∈ s.grid,
      Spec.fitTensor s.params (k j) y z (Spec.rowEntry i).1 (Spec.rowEntry i).2 ≠ 1e-12) :
    HasDerivAt (fun d => Real.log (Spec.predicted (s.louder d) n k i j)) (1 - Spec.floorShare s n k i j) 0 := by
  have hy := predicted_pos s hp hg h2 hk hi hj
  have hnear := predicted_near s hp hi hj (hk j hj) hoff
  have h1 : HasDerivAt (fun d => Real.exp d * (Spec.predicted s n k i j - Spec.floorPart s i (k j)) + Spec.floorPart s i (k j))
      (Real.exp 0 * (Spec.predicted s n k i j - Spec.floorPart s i (k j))) 0 :=
    ((Real.hasDerivAt_exp 0).mul_const _).add_const _
  have h3 := h1.log (by rw [Real.exp_zero]; simpa using hy.ne')
  have e : Real.exp 0 * (Spec.predicted s n k i j - Spec.floorPart s i (k j)) /
      (Real.exp 0 * (Spec.predicted s n k i j - Spec.floorPart s i (k j)) + Spec.floorPart s i (k j)) =
      1 - Spec.floorShare s n k i j := by
    rw [Real.exp_zero, one_mul, sub_add_cancel]
    unfold Spec.floorShare
    field_simp
  rw [e] at h3
  exact h3.congr_of_eventuallyEq (hnear.mono fun d hd => by simp only [hd])

/-! ### The training loss -/

theorem mean2_congr {m n : ℕ} {f g : ℕ → ℕ → ℝ} (h : ∀ i < m, ∀ j < n, f i j = g i j) : Spec.mean2 m n f = Spec.mean2 m n g := by
  unfold Spec.mean2
  congr 1
  exact Finset.sum_congr rfl fun i hi => Finset.sum_congr rfl fun j hj => h i (Finset.mem_range.1 hi) j (Finset.mem_range.1 hj)

theorem mean2_deriv {m n : ℕ} {f : ℝ → ℕ → ℕ → ℝ} {f' : ℕ → ℕ → ℝ} {x : ℝ}
    (h : ∀ i < m, ∀ j < n, HasDerivAt (fun d => f d i j) (f' i j) x) :
    HasDerivAt (fun d => Spec.mean2 m n (f d)) (Spec.mean2 m n f') x := by
  unfold Spec.mean2
  exact (HasDerivAt.fun_sum fun i hi => HasDerivAt.fun_sum fun j hj =>
    h i (Finset.mem_range.1 hi) j (Finset.mem_range.1 hj)).div_const _

/-- The misfit in terms of the logarithmic ratios. -/
theorem misfit_ratio (s : OPS) (hp : s.params.LifetimeFinite) (hg : s.grid.Pairwise (· < ·)) (h2 : 2 ≤ s.grid.length) {n : ℕ}
    {k : ℕ → ℝ} (hk : ∀ j < n, 0 < k j) {t : ℕ → ℕ → ℝ} (ht : ∀ i < 3, ∀ j < n, t i j ≠ 0) :
    Spec.tableMisfit 3 n (fun i j => Spec.cell (OPS.forward ((List.range n).map k) s).1 i j) t =
      Spec.mean2 3 n fun i j => Spec.logRatio s n k t i j ^ 2 := by
  unfold Spec.tableMisfit
  refine mean2_congr fun i hi j hj => ?_
  have hy := predicted_pos s hp hg h2 hk hi hj
  unfold Spec.logRatio
  rw [Real.log_div hy.ne' (abs_pos.2 (ht i hi j hj)).ne']
  unfold Spec.predicted at hy ⊢
  rw [abs_of_pos hy]

/-- Without penalties and coherence data the loss is the mean square of the logarithmic ratios plus the regularisation. -/
theorem loss_ratio (cfg : TrainCfg) {n : ℕ} {k : ℕ → ℝ} {t : ℕ → ℕ → ℝ} (hF : Spec.FitSetting cfg n k t) (st : TrainState)
    (hg : st.ops.grid.Pairwise (· < ·)) (h2 : 2 ≤ st.ops.grid.length) (hc : cfg.coh = none) (h1 : cfg.loss.alphaPen1 ≤ 0)
    (h2' : cfg.loss.alphaPen2 ≤ 0) (θ : List ℝ) (hp : (st.ops.setVec cfg.prob.learnNu θ).params.LifetimeFinite)
    (hreg : 0 < cfg.loss.betaReg → ∃ net, (st.ops.setVec cfg.prob.learnNu θ).kind = .taunet net ∧
      net.paramVec cfg.prob.learnNu ≠ []) :
    (closure cfg θ st).1 = .ok (fin (Spec.mean2 3 n (fun i j => Spec.logRatio (st.ops.setVec cfg.prob.learnNu θ) n k t i j ^ 2) +
      max cfg.loss.betaReg 0 * Spec.netMeanSquare cfg.prob.learnNu (st.ops.setVec cfg.prob.learnNu θ))) := by
  rw [closure_objective cfg hF st hg h2 (a := 0) (b := 0) (r := fun _ => 0) (f := fun _ => 0) (D := fun _ _ _ => 0) (Or.inl hc)
    θ hp hreg]
  congr 2
  unfold Spec.objective
  simp only [hc, Option.isSome_none, Bool.false_eq_true, if_false, max_eq_right h1, max_eq_right h2', zero_mul, zero_div, add_zero]
  rw [misfit_ratio _ hp hg h2 hF.asc.1 hF.t0]

theorem louder_zero (s : OPS) : s.louder 0 = s := by
  unfold OPS.louder; rw [add_zero]

theorem louder_netMeanSquare (d : ℝ) (ln : Bool) (s : OPS) : Spec.netMeanSquare ln (s.louder d) = Spec.netMeanSquare ln s := rfl

theorem mean2_cauchy {m n : ℕ} (hm : 0 < m) (hn : 0 < n) (a e : ℕ → ℕ → ℝ) {E : ℝ} (hE : 0 ≤ E)
    (he : ∀ i < m, ∀ j < n, |e i j| ≤ E) :
    |Spec.mean2 m n fun i j => a i j * e i j| ≤ E * Real.sqrt (Spec.mean2 m n fun i j => a i j ^ 2) := by
  have hN : 0 < (m : ℝ) * n := by positivity
  refine abs_le_of_sq_le_sq ?_ (by positivity)
  have hnn : 0 ≤ Spec.mean2 m n fun i j => a i j ^ 2 := by unfold Spec.mean2; positivity
  rw [mul_pow, Real.sq_sqrt hnn]
  unfold Spec.mean2
  rw [← Finset.sum_product', ← Finset.sum_product', div_pow]
  have hcs := Finset.sum_mul_sq_le_sq_mul_sq (Finset.range m ×ˢ Finset.range n) (fun x => a x.1 x.2) fun x => e x.1 x.2
  have hee : (∑ x ∈ Finset.range m ×ˢ Finset.range n, e x.1 x.2 ^ 2) ≤ m * n * E ^ 2 := by
    calc _ ≤ ∑ x ∈ Finset.range m ×ˢ Finset.range n, E ^ 2 := by
          refine Finset.sum_le_sum fun x hx => ?_
          rw [Finset.mem_product, Finset.mem_range, Finset.mem_range] at hx
          rw [← sq_abs]
          exact pow_le_pow_left₀ (abs_nonneg _) (he _ hx.1 _ hx.2) 2
      _ = _ := by rw [Finset.sum_const, Finset.card_product, Finset.card_range, Finset.card_range]; simp
  have hA : 0 ≤ ∑ x ∈ Finset.range m ×ˢ Finset.range n, a x.1 x.2 ^ 2 := Finset.sum_nonneg fun _ _ => sq_nonneg _
  rw [div_le_iff₀ (by positivity)]
  calc _ ≤ _ := hcs
    _ ≤ (∑ x ∈ Finset.range m ×ˢ Finset.range n, a x.1 x.2 ^ 2) * (m * n * E ^ 2) := mul_le_mul_of_nonneg_left hee hA
    _ = _ := by field_simp

/-- **C131** (no bias).  Where no change of the magnitude alone improves the loss - in particular at the best parameters - the
predictions exceed the data as much as they fall short of them: the mean logarithm of the ratio of prediction and data, weighted by
the share of the prediction that is not due to the floor, is zero, so that the plain mean is at most the largest share of the floor
times the root mean square of the logarithmic ratios.  Regularisation may be on. -/
theorem C131_unbiased (cfg : TrainCfg) {n : ℕ} {k : ℕ → ℝ} {t : ℕ → ℕ → ℝ} (hF : Spec.FitSetting cfg n k t) (st : TrainState)
    (hg : st.ops.grid.Pairwise (· < ·)) (h2 : 2 ≤ st.ops.grid.length) (hc : cfg.coh = none) (h1 : cfg.loss.alphaPen1 ≤ 0)
    (h2' : cfg.loss.alphaPen2 ≤ 0) {θ : List ℝ} (hθ : 3 ≤ θ.length)
    (hp : (st.ops.setVec cfg.prob.learnNu θ).params.LifetimeFinite)
    (hreg : 0 < cfg.loss.betaReg → ∃ net, (st.ops.setVec cfg.prob.learnNu θ).kind = .taunet net ∧
      net.paramVec cfg.prob.learnNu ≠ [])
    (hoff : ∀ i < 3, ∀ j < n, ∀ y ∈ st.ops.grid, ∀ z ∈ st.ops.grid,
      Spec.fitTensor (st.ops.setVec cfg.prob.learnNu θ).params (k j) y z (Spec.rowEntry i).1 (Spec.rowEntry i).2 ≠ 1e-12)
    (hmin : ∀ᶠ d in 𝓝 (0 : ℝ), ∀ v v', (closure cfg θ st).1 = .ok (fin v) →
      (closure cfg (θ.set 2 (θ[2] + d)) st).1 = .ok (fin v') → v ≤ v') :
    (Spec.mean2 3 n fun i j => Spec.logRatio (st.ops.setVec cfg.prob.learnNu θ) n k t i j *
      (1 - Spec.floorShare (st.ops.setVec cfg.prob.learnNu θ) n k i j)) = 0 ∧
    ∀ E, (∀ i < 3, ∀ j < n, Spec.floorShare (st.ops.setVec cfg.prob.learnNu θ) n k i j ≤ E) →
      |Spec.mean2 3 n fun i j => Spec.logRatio (st.ops.setVec cfg.prob.learnNu θ) n k t i j| ≤
        E * Real.sqrt (Spec.mean2 3 n fun i j => Spec.logRatio (st.ops.setVec cfg.prob.learnNu θ) n k t i j ^ 2) := by
  have hn : 0 < n := by have := hF.n3; omega
  have hk := hF.asc.1
  obtain ⟨s, hs⟩ : ∃ s, s = st.ops.setVec cfg.prob.learnNu θ := ⟨_, rfl⟩
  have hv : ∀ d, (closure cfg (θ.set 2 (θ[2] + d)) st).1 = .ok (fin (Spec.mean2 3 n (fun i j => Spec.logRatio (s.louder d) n k t i j ^ 2) +
      max cfg.loss.betaReg 0 * Spec.netMeanSquare cfg.prob.learnNu s)) := by
    intro d
    have e := louder_setVec st.ops cfg.prob.learnNu hθ d
    rw [loss_ratio cfg hF st hg h2 hc h1 h2' _ (by rw [e]; exact louder_finite hp) (by rw [e]; exact hreg), e, ← hs,
      louder_netMeanSquare]
  have hv0 := loss_ratio cfg hF st hg h2 hc h1 h2' θ hp hreg
  rw [← hs] at hp hoff hv0 ⊢
  have hgs : s.grid = st.ops.grid := by rw [hs]; rfl
  rw [← hgs] at hg h2 hoff
  have hr : ∀ i < 3, ∀ j < n, HasDerivAt (fun d => Spec.logRatio (s.louder d) n k t i j) (1 - Spec.floorShare s n k i j) 0 := by
    intro i hi j hj
    have hd := predicted_deriv s hp hg h2 hk hi hj (hoff i hi j hj)
    have := hd.sub_const (Real.log |t i j|)
    refine this.congr_of_eventuallyEq (Eventually.of_forall fun d => ?_)
    show Spec.logRatio (s.louder d) n k t i j = _
    unfold Spec.logRatio
    exact Real.log_div (predicted_pos (s.louder d) (louder_finite hp) hg h2 hk hi hj).ne' (abs_pos.2 (hF.t0 i hi j hj)).ne'
  have hD : HasDerivAt (fun d => Spec.mean2 3 n fun i j => Spec.logRatio (s.louder d) n k t i j ^ 2)
      (Spec.mean2 3 n fun i j => 2 * (Spec.logRatio s n k t i j * (1 - Spec.floorShare s n k i j))) 0 := by
    refine mean2_deriv fun i hi j hj => ?_
    have := (hr i hi j hj).fun_pow 2
    rw [louder_zero] at this
    refine this.congr_deriv ?_
    push_cast
    ring
  have hloc : IsLocalMin (fun d => Spec.mean2 3 n fun i j => Spec.logRatio (s.louder d) n k t i j ^ 2) 0 := by
    filter_upwards [hmin] with d hd
    have := hd _ _ hv0 (hv d)
    rw [louder_zero]
    linarith
  have hz := hloc.hasDerivAt_eq_zero hD
  have hz' : (Spec.mean2 3 n fun i j => Spec.logRatio s n k t i j * (1 - Spec.floorShare s n k i j)) = 0 := by
    unfold Spec.mean2 at hz ⊢
    simp only [← Finset.mul_sum] at hz
    rw [mul_div_assoc] at hz
    linarith
  refine ⟨hz', fun E hE => ?_⟩
  have hsh := fun i (hi : i < 3) j (hj : j < n) => floorShare_mem s hp hg h2 hk hi hj
  have hE0 : 0 ≤ E := (hsh 0 (by norm_num) 0 hn).1.trans (hE 0 (by norm_num) 0 hn)
  have hb := mean2_cauchy (m := 3) (n := n) (by norm_num) hn (Spec.logRatio s n k t) (Spec.floorShare s n k) hE0
    fun i hi j hj => by rw [abs_of_nonneg (hsh i hi j hj).1]; exact hE i hi j hj
  have e : (Spec.mean2 3 n fun i j => Spec.logRatio s n k t i j) =
      Spec.mean2 3 n fun i j => Spec.logRatio s n k t i j * Spec.floorShare s n k i j := by
    have : (Spec.mean2 3 n fun i j => Spec.logRatio s n k t i j) - (Spec.mean2 3 n fun i j => Spec.logRatio s n k t i j *
        Spec.floorShare s n k i j) = 0 := by
      rw [← hz']
      unfold Spec.mean2
      rw [← sub_div, ← Finset.sum_sub_distrib]
      congr 1
      refine Finset.sum_congr rfl fun i _ => ?_
      rw [← Finset.sum_sub_distrib]
      exact Finset.sum_congr rfl fun j _ => by ring
    linarith
  rw [e]
  exact hb

/-! ### The share of the floor, and data in another unit of energy -/

/-- **C131** (share).  Where the floor acts at most at the wavevector along the wind, the predictions of `vv` and `ww` have no part
due to the floor and that of `uu` has the part of that single node. -/
theorem C131_share (s : OPS) (hp : s.params.LifetimeFinite) (n : ℕ) (k : ℕ → ℝ) {i j : ℕ} (hi : i < 3) (hk : 0 < k j)
    (h : ∀ y ∈ s.grid, ∀ z ∈ s.grid, i ≠ 0 ∨ y ≠ 0 ∨ z ≠ 0 →
      1e-12 < Spec.fitTensor s.params (k j) y z (Spec.rowEntry i).1 (Spec.rowEntry i).2) :
    Spec.floorShare s n k i j = if i = 0 then k j * (1e-12 * Spec.axisWeight s.grid) / Spec.predicted s n k i j else 0 := by
  unfold Spec.floorShare Spec.floorPart
  by_cases h0 : i = 0
  · subst h0
    rw [if_pos rfl]
    unfold Spec.axisWeight
    rw [← quad23_smul (c := 1e-12)]
    congr 2
    unfold quad23
    refine trapz_congr fun y hy => trapz_congr fun z hz => ?_
    beta_reduce
    by_cases hyz : y = 0 ∧ z = 0
    · obtain ⟨rfl, rfl⟩ := hyz
      have : Spec.fitTensor s.params (k j) 0 0 (Spec.rowEntry 0).1 (Spec.rowEntry 0).2 = 0 := fitTensor_11_zero _ hp hk.ne'
      rw [this, if_pos (by norm_num), if_pos ⟨rfl, rfl⟩, mul_one]
    · rw [if_neg (not_le.2 (h y hy z hz (Or.inr (by tauto)))), if_neg hyz, mul_zero]
  · rw [if_neg h0]
    have : (quad23 s.grid s.grid fun y z => if Spec.fitTensor s.params (k j) y z (Spec.rowEntry i).1 (Spec.rowEntry i).2 ≤ 1e-12
        then (1e-12 : ℝ) else 0) = quad23 s.grid s.grid fun _ _ => 0 * 0 := by
      unfold quad23
      refine trapz_congr fun y hy => trapz_congr fun z hz => ?_
      beta_reduce
      rw [if_neg (not_le.2 (h y hy z hz (Or.inl h0))), mul_zero]
    rw [this, quad23_smul (c := 0), zero_mul, mul_zero, zero_div]

/-- Change of the logarithmic ratios. -/
theorem logRatio_louder (s : OPS) (hp : s.params.LifetimeFinite) (hg : s.grid.Pairwise (· < ·)) (h2 : 2 ≤ s.grid.length) {n : ℕ}
    {k : ℕ → ℝ} (hk : ∀ j < n, 0 < k j) {t : ℕ → ℕ → ℝ} {i j : ℕ} (hi : i < 3) (hj : j < n) (ht : t i j ≠ 0) {d : ℝ} (hd : 0 ≤ d)
    {E : ℝ} (hE1 : E < 1) (hE : Spec.floorShare s n k i j ≤ E) :
    |Spec.logRatio (s.louder d) n k t i j - (Spec.logRatio s n k t i j + d)| ≤ -Real.log (1 - E) := by
  have hy := predicted_pos s hp hg h2 hk hi hj
  have hy' := predicted_pos (s.louder d) (louder_finite hp) hg h2 hk hi hj
  obtain ⟨hu, hl⟩ := C131_growth s hp hg h2 hk hi hj hd
  obtain ⟨hs0, hs1⟩ := floorShare_mem s hp hg h2 hk hi hj
  have he : 1 ≤ Real.exp d := Real.one_le_exp hd
  have hE0 : 0 ≤ E := hs0.trans hE
  unfold Spec.logRatio
  rw [Real.log_div hy'.ne' (abs_pos.2 ht).ne', Real.log_div hy.ne' (abs_pos.2 ht).ne']
  have h1 : Real.log (Spec.predicted (s.louder d) n k i j) ≤ d + Real.log (Spec.predicted s n k i j) := by
    rw [← Real.log_exp d, ← Real.log_mul (Real.exp_pos d).ne' hy.ne', Real.log_exp]
    exact Real.log_le_log hy' hu
  have h3 : d + Real.log (1 - E) + Real.log (Spec.predicted s n k i j) ≤ Real.log (Spec.predicted (s.louder d) n k i j) := by
    have hpos : 0 < Real.exp d * (1 - E) := mul_pos (Real.exp_pos d) (by linarith)
    have e : d + Real.log (1 - E) + Real.log (Spec.predicted s n k i j) =
        Real.log (Real.exp d * (1 - E) * Spec.predicted s n k i j) := by
      rw [Real.log_mul hpos.ne' hy.ne', Real.log_mul (Real.exp_pos d).ne' (by linarith), Real.log_exp]
    rw [e]
    refine Real.log_le_log (mul_pos hpos hy) (le_trans (mul_le_mul_of_nonneg_right ?_ hy.le) hl)
    nlinarith
  have h4 : Real.log (1 - E) ≤ 0 := Real.log_nonpos (by linarith) (by linarith)
  rw [abs_le]
  constructor <;> linarith

/-- Root mean squares of tables that differ by at most `δ` differ by at most `δ`. -/
theorem rms_le {m n : ℕ} (hm : 0 < m) (hn : 0 < n) (a b : ℕ → ℕ → ℝ) {δ : ℝ} (h : ∀ i < m, ∀ j < n, |a i j - b i j| ≤ δ) :
    Real.sqrt (Spec.mean2 m n fun i j => a i j ^ 2) ≤ Real.sqrt (Spec.mean2 m n fun i j => b i j ^ 2) + δ := by
  have hδ : 0 ≤ δ := (abs_nonneg _).trans (h 0 hm 0 hn)
  have hb : 0 ≤ Spec.mean2 m n fun i j => b i j ^ 2 := by unfold Spec.mean2; positivity
  have hN : (0 : ℝ) < m * n := by positivity
  refine Real.sqrt_le_iff.2 ⟨by positivity, ?_⟩
  have hc := mean2_cauchy hm hn b (fun i j => a i j - b i j) hδ h
  have e : (Spec.mean2 m n fun i j => a i j ^ 2) = (Spec.mean2 m n fun i j => b i j ^ 2) +
      2 * (Spec.mean2 m n fun i j => b i j * (a i j - b i j)) + Spec.mean2 m n fun i j => (a i j - b i j) ^ 2 := by
    unfold Spec.mean2
    rw [mul_div_assoc', Finset.mul_sum, ← add_div, ← add_div, ← Finset.sum_add_distrib, ← Finset.sum_add_distrib]
    congr 1
    refine Finset.sum_congr rfl fun i _ => ?_
    rw [Finset.mul_sum, ← Finset.sum_add_distrib, ← Finset.sum_add_distrib]
    exact Finset.sum_congr rfl fun j _ => by ring
  have hd : (Spec.mean2 m n fun i j => (a i j - b i j) ^ 2) ≤ δ ^ 2 := by
    unfold Spec.mean2
    rw [div_le_iff₀ hN]
    calc _ ≤ ∑ i ∈ Finset.range m, ∑ j ∈ Finset.range n, δ ^ 2 := by
          refine Finset.sum_le_sum fun i hi => Finset.sum_le_sum fun j hj => ?_
          beta_reduce
          rw [← sq_abs (a i j - b i j)]
          exact pow_le_pow_left₀ (abs_nonneg _) (h i (Finset.mem_range.1 hi) j (Finset.mem_range.1 hj)) 2
      _ = _ := by simp only [Finset.sum_const, Finset.card_range, nsmul_eq_mul]; ring
  have hsq := Real.sq_sqrt hb
  have := (abs_le.1 hc).2
  rw [e]
  nlinarith

theorem rms_abs_le {m n : ℕ} (hm : 0 < m) (hn : 0 < n) (a b : ℕ → ℕ → ℝ) {δ : ℝ} (h : ∀ i < m, ∀ j < n, |a i j - b i j| ≤ δ) :
    |Real.sqrt (Spec.mean2 m n fun i j => a i j ^ 2) - Real.sqrt (Spec.mean2 m n fun i j => b i j ^ 2)| ≤ δ := by
  have h1 := rms_le hm hn a b h
  have h2 := rms_le hm hn b a fun i hi j hj => by rw [abs_sub_comm]; exact h i hi j hj
  rw [abs_le]
  constructor <;> linarith

theorem mean2_shift_sq {m n : ℕ} (hm : 0 < m) (hn : 0 < n) (a : ℕ → ℕ → ℝ) (d : ℝ) :
    (Spec.mean2 m n fun i j => (a i j + d) ^ 2) =
      (Spec.mean2 m n fun i j => a i j ^ 2) + 2 * d * (Spec.mean2 m n a) + d ^ 2 := by
  have hN : (m : ℝ) * n ≠ 0 := by positivity
  have e : ∀ i j, (a i j + d) ^ 2 = a i j ^ 2 + 2 * d * a i j + d ^ 2 := fun i j => by ring
  unfold Spec.mean2
  simp only [e, Finset.sum_add_distrib, ← Finset.mul_sum, Finset.sum_const, Finset.card_range, nsmul_eq_mul]
  field_simp

/-- **C131** (profile of the loss).  Along the magnitude the loss is a parabola with curvature 1, up to the floor: with the
magnitude multiplied by `exp d`, `d ≥ 0`, the root of the loss differs from that of `v + 2 d b + d²` - with `b` the mean logarithmic
ratio - by at most `- log (1 - E)`, where `E` bounds the shares of the floor at the first magnitude. -/
theorem C131_parabola (cfg : TrainCfg) {n : ℕ} {k : ℕ → ℝ} {t : ℕ → ℕ → ℝ} (hF : Spec.FitSetting cfg n k t) (st : TrainState)
    (hg : st.ops.grid.Pairwise (· < ·)) (h2 : 2 ≤ st.ops.grid.length) (hc : cfg.coh = none) (h1 : cfg.loss.alphaPen1 ≤ 0)
    (h2' : cfg.loss.alphaPen2 ≤ 0) (h3' : cfg.loss.betaReg ≤ 0) {θ : List ℝ} (hθ : 3 ≤ θ.length)
    (hp : (st.ops.setVec cfg.prob.learnNu θ).params.LifetimeFinite) {E : ℝ} (hE1 : E < 1)
    (hE : ∀ i < 3, ∀ j < n, Spec.floorShare (st.ops.setVec cfg.prob.learnNu θ) n k i j ≤ E) {d : ℝ} (hd : 0 ≤ d) :
    ∃ v v', (closure cfg θ st).1 = .ok (fin v) ∧ (closure cfg (θ.set 2 (θ[2] + d)) st).1 = .ok (fin v') ∧
      |Real.sqrt v' - Real.sqrt (v + 2 * d * (Spec.mean2 3 n fun i j => Spec.logRatio (st.ops.setVec cfg.prob.learnNu θ) n k t i j) +
        d ^ 2)| ≤ -Real.log (1 - E) := by
  have hn : 0 < n := by have := hF.n3; omega
  have e := louder_setVec st.ops cfg.prob.learnNu hθ d
  have hv := loss_ratio cfg hF st hg h2 hc h1 h2' θ hp (fun h => absurd h (not_lt.2 h3'))
  have hv' := loss_ratio cfg hF st hg h2 hc h1 h2' _ (by rw [e]; exact louder_finite hp) (fun h => absurd h (not_lt.2 h3'))
  rw [max_eq_right h3', zero_mul, add_zero] at hv hv'
  refine ⟨_, _, hv, hv', ?_⟩
  rw [← mean2_shift_sq (by norm_num) hn, e]
  exact rms_abs_le (by norm_num) hn _ _ fun i hi j hj =>
    logRatio_louder _ hp hg h2 hF.asc.1 hi hj (hF.t0 i hi j hj) hd hE1 (hE i hi j hj)

/-- **C131** (data in another unit).  Multiplying all data by `exp d ≥ 1` and the magnitude by the same factor changes the root of
the loss by at most `- log (1 - E)`: the other parameters of the best fit do not depend on the unit of the spectra, up to the floor. -/
theorem C131_data (cfg cfg' : TrainCfg) {n : ℕ} {k : ℕ → ℝ} {t : ℕ → ℕ → ℝ} (hF : Spec.FitSetting cfg n k t) {d : ℝ} (hd : 0 ≤ d)
    (hcfg : cfg' = { cfg with target := Spec.table 3 n fun i j => fin (Real.exp d * t i j) }) (st : TrainState)
    (hg : st.ops.grid.Pairwise (· < ·)) (h2 : 2 ≤ st.ops.grid.length) (hc : cfg.coh = none) (h1 : cfg.loss.alphaPen1 ≤ 0)
    (h2' : cfg.loss.alphaPen2 ≤ 0) (h3' : cfg.loss.betaReg ≤ 0) {θ : List ℝ} (hθ : 3 ≤ θ.length)
    (hp : (st.ops.setVec cfg.prob.learnNu θ).params.LifetimeFinite) {E : ℝ} (hE1 : E < 1)
    (hE : ∀ i < 3, ∀ j < n, Spec.floorShare (st.ops.setVec cfg.prob.learnNu θ) n k i j ≤ E) :
    ∃ v v', (closure cfg θ st).1 = .ok (fin v) ∧ (closure cfg' (θ.set 2 (θ[2] + d)) st).1 = .ok (fin v') ∧
      |Real.sqrt v' - Real.sqrt v| ≤ -Real.log (1 - E) := by
  have hn : 0 < n := by have := hF.n3; omega
  subst hcfg
  have hF' : Spec.FitSetting { cfg with target := Spec.table 3 n fun i j => fin (Real.exp d * t i j) } n k
      fun i j => Real.exp d * t i j :=
    ⟨hF.nc, hF.n3, hF.asc, hF.k1s, rfl, fun i hi j hj => mul_ne_zero (Real.exp_pos d).ne' (hF.t0 i hi j hj), hF.zref⟩
  have e := louder_setVec st.ops cfg.prob.learnNu hθ d
  have hv := loss_ratio cfg hF st hg h2 hc h1 h2' θ hp (fun h => absurd h (not_lt.2 h3'))
  have hv' := loss_ratio _ hF' st hg h2 hc h1 h2' (θ.set 2 (θ[2] + d)) (by rw [e]; exact louder_finite hp)
    (fun h => absurd h (not_lt.2 h3'))
  simp only [max_eq_right h3', zero_mul, add_zero] at hv hv'
  refine ⟨_, _, hv, hv', ?_⟩
  rw [e]
  refine rms_abs_le (by norm_num) hn _ _ fun i hi j hj => ?_
  have h := logRatio_louder _ hp hg h2 hF.asc.1 hi hj (hF.t0 i hi j hj) hd hE1 (hE i hi j hj)
  have hy' := predicted_pos ((st.ops.setVec cfg.prob.learnNu θ).louder d) (louder_finite hp) hg h2 hF.asc.1 hi hj
  have ht := abs_pos.2 (hF.t0 i hi j hj)
  have er : Spec.logRatio ((st.ops.setVec cfg.prob.learnNu θ).louder d) n k (fun i j => Real.exp d * t i j) i j =
      Spec.logRatio ((st.ops.setVec cfg.prob.learnNu θ).louder d) n k t i j - d := by
    unfold Spec.logRatio
    rw [abs_mul, abs_of_pos (Real.exp_pos d), Real.log_div hy'.ne' (by positivity), Real.log_div hy'.ne' ht.ne',
      Real.log_mul (Real.exp_pos d).ne' ht.ne', Real.log_exp]
    ring
  rw [er]
  have e2 : ∀ a b c : ℝ, a - c - b = a - (b + c) := fun a b c => by ring
  rw [e2]
  exact h

/-! ### A case -/

theorem louder_off (s : OPS) (hp : s.params.LifetimeFinite) {n : ℕ} {k : ℕ → ℝ} (hk : ∀ j < n, 0 < k j) :
    ∃ m, ∀ i < 3, ∀ j < n, ∀ y ∈ s.grid, ∀ z ∈ s.grid, i ≠ 0 ∨ y ≠ 0 ∨ z ≠ 0 →
      1e-12 < Spec.fitTensor (s.louder m).params (k j) y z (Spec.rowEntry i).1 (Spec.rowEntry i).2 := by
  have key : ∀ (i j : ℕ) (y z : ℝ), ∀ᶠ m : ℝ in atTop, i < 3 → j < n → i ≠ 0 ∨ y ≠ 0 ∨ z ≠ 0 →
      1e-12 < Spec.fitTensor (s.louder m).params (k j) y z (Spec.rowEntry i).1 (Spec.rowEntry i).2 := by
    intro i j y z
    by_cases hc : i < 3 ∧ j < n ∧ (i ≠ 0 ∨ y ≠ 0 ∨ z ≠ 0)
    swap
    · exact Eventually.of_forall fun m h1 h2 h3 => absurd ⟨h1, h2, h3⟩ hc
    have hpos := fitTensor_diag_pos s.params hp (hk j hc.2.1).ne' hc.1 hc.2.2
    have ht := (Real.tendsto_exp_atTop.atTop_mul_const hpos).eventually (eventually_gt_atTop (1e-12))
    filter_upwards [ht] with m h _ _ _
    rw [louder_tensor]
    exact h
  have hfin : Set.Finite {x | x ∈ s.grid} := List.finite_toSet s.grid
  have all : ∀ᶠ m : ℝ in atTop, ∀ i ∈ {x : ℕ | x < 3}, ∀ j ∈ {x : ℕ | x < n}, ∀ y ∈ {x | x ∈ s.grid}, ∀ z ∈ {x | x ∈ s.grid},
      i < 3 → j < n → i ≠ 0 ∨ y ≠ 0 ∨ z ≠ 0 →
      1e-12 < Spec.fitTensor (s.louder m).params (k j) y z (Spec.rowEntry i).1 (Spec.rowEntry i).2 :=
    (Set.finite_lt_nat 3).eventually_all.2 fun i _ => (Set.finite_lt_nat n).eventually_all.2 fun j _ =>
      hfin.eventually_all.2 fun y _ => hfin.eventually_all.2 fun z _ => key i j y z
  obtain ⟨m, h⟩ := all.exists
  exact ⟨m, fun i hi j hj y hy z hz => h i hi j hj y hy z hz hi hj⟩

/-- The hypotheses of `C131_unbiased` are met, for every object, with data that the model does not reproduce: take the predictions
of the object at a large magnitude and move one value of `vv` up and one of `ww` down by the factor `e`. -/
theorem C131_case (cfg : TrainCfg) {n : ℕ} {k : ℕ → ℝ} {t : ℕ → ℕ → ℝ} (hF : Spec.FitSetting cfg n k t) (st : TrainState)
    (hg : st.ops.grid.Pairwise (· < ·)) (h2 : 2 ≤ st.ops.grid.length) (hc : cfg.coh = none) (h1 : cfg.loss.alphaPen1 ≤ 0)
    (h2' : cfg.loss.alphaPen2 ≤ 0) (h3' : cfg.loss.betaReg ≤ 0) {θ₀ : List ℝ} (hθ₀ : 3 ≤ θ₀.length)
    (hp₀ : (st.ops.setVec cfg.prob.learnNu θ₀).params.LifetimeFinite) :
    ∃ (cfg' : TrainCfg) (t' : ℕ → ℕ → ℝ) (θ : List ℝ) (hθ : 3 ≤ θ.length), Spec.FitSetting cfg' n k t' ∧ cfg'.coh = none ∧
      cfg'.loss = cfg.loss ∧ cfg'.prob = cfg.prob ∧ (st.ops.setVec cfg'.prob.learnNu θ).params.LifetimeFinite ∧
      (∀ i < 3, ∀ j < n, ∀ y ∈ st.ops.grid, ∀ z ∈ st.ops.grid,
        Spec.fitTensor (st.ops.setVec cfg'.prob.learnNu θ).params (k j) y z (Spec.rowEntry i).1 (Spec.rowEntry i).2 ≠ 1e-12) ∧
      (∀ d v v', (closure cfg' θ st).1 = .ok (fin v) → (closure cfg' (θ.set 2 (θ[2] + d)) st).1 = .ok (fin v') → 0 ≤ d → v ≤ v') ∧
      (∀ᶠ d in 𝓝 (0 : ℝ), ∀ v v', (closure cfg' θ st).1 = .ok (fin v) →
        (closure cfg' (θ.set 2 (θ[2] + d)) st).1 = .ok (fin v') → v ≤ v') ∧
      (closure cfg' θ st).1 = .ok (fin (2 / (3 * n))) := by
  have hn : 0 < n := by have := hF.n3; omega
  have hk := hF.asc.1
  obtain ⟨m, hm⟩ := louder_off _ hp₀ hk
  obtain ⟨θ, hθe⟩ : ∃ θ, θ = θ₀.set 2 (θ₀[2] + m) := ⟨_, rfl⟩
  have hθ : 3 ≤ θ.length := by rw [hθe]; simpa using hθ₀
  obtain ⟨s, hs⟩ : ∃ s, s = st.ops.setVec cfg.prob.learnNu θ := ⟨_, rfl⟩
  have hse : s = (st.ops.setVec cfg.prob.learnNu θ₀).louder m := by rw [hs, hθe, louder_setVec _ _ hθ₀]
  have hp : s.params.LifetimeFinite := by rw [hse]; exact louder_finite hp₀
  rw [← hse] at hm
  have hgs : s.grid = st.ops.grid := by rw [hs]; rfl
  have hm' : ∀ i < 3, ∀ j < n, ∀ y ∈ s.grid, ∀ z ∈ s.grid, i ≠ 0 ∨ y ≠ 0 ∨ z ≠ 0 →
      1e-12 < Spec.fitTensor s.params (k j) y z (Spec.rowEntry i).1 (Spec.rowEntry i).2 := by
    intro i hi j hj y hy z hz
    rw [hgs] at hy hz
    exact hm i hi j hj y hy z hz
  have hgS : s.grid.Pairwise (· < ·) := by rw [hgs]; exact hg
  have h2S : 2 ≤ s.grid.length := by rw [hgs]; exact h2
  have hoff : ∀ i < 3, ∀ j < n, ∀ y ∈ s.grid, ∀ z ∈ s.grid,
      Spec.fitTensor s.params (k j) y z (Spec.rowEntry i).1 (Spec.rowEntry i).2 ≠ 1e-12 := by
    intro i hi j hj y hy z hz
    by_cases hc : i ≠ 0 ∨ y ≠ 0 ∨ z ≠ 0
    · exact (hm' i hi j hj y hy z hz hc).ne'
    · push Not at hc
      obtain ⟨rfl, rfl, rfl⟩ := hc
      have : Spec.fitTensor s.params (k j) 0 0 (Spec.rowEntry 0).1 (Spec.rowEntry 0).2 = 0 := fitTensor_11_zero _ hp (hk j hj).ne'
      rw [this]
      norm_num
  obtain ⟨r, hr⟩ : ∃ r : ℕ → ℕ → ℝ, r = fun i j => if j = 0 then (if i = 1 then 1 else if i = 2 then -1 else 0) else 0 := ⟨_, rfl⟩
  obtain ⟨t', ht'⟩ : ∃ t' : ℕ → ℕ → ℝ, t' = fun i j => if i < 3 ∧ j < n then Spec.predicted s n k i j * Real.exp (-r i j) else 1 :=
    ⟨_, rfl⟩
  have htp : ∀ i < 3, ∀ j < n, t' i j = Spec.predicted s n k i j * Real.exp (-r i j) := fun i hi j hj => by
    rw [ht']; exact if_pos ⟨hi, hj⟩
  have hyp := fun i (hi : i < 3) j (hj : j < n) => predicted_pos s hp hgS h2S hk hi hj
  have ht0 : ∀ i < 3, ∀ j < n, t' i j ≠ 0 := fun i hi j hj => by
    rw [htp i hi j hj]; exact (mul_pos (hyp i hi j hj) (Real.exp_pos _)).ne'
  have hrat : ∀ i < 3, ∀ j < n, Spec.logRatio s n k t' i j = r i j := by
    intro i hi j hj
    unfold Spec.logRatio
    rw [htp i hi j hj, abs_of_pos (mul_pos (hyp i hi j hj) (Real.exp_pos _)), div_mul_eq_div_div, div_self (hyp i hi j hj).ne',
      one_div, ← Real.exp_neg, neg_neg, Real.log_exp]
  have hF' : Spec.FitSetting { cfg with target := Spec.table 3 n fun i j => fin (t' i j) } n k t' :=
    ⟨hF.nc, hF.n3, hF.asc, hF.k1s, rfl, ht0, hF.zref⟩
  have hv : ∀ d, (closure { cfg with target := Spec.table 3 n fun i j => fin (t' i j) } (θ.set 2 (θ[2] + d)) st).1 =
      .ok (fin (Spec.mean2 3 n fun i j => Spec.logRatio (s.louder d) n k t' i j ^ 2)) := by
    intro d
    have e := louder_setVec st.ops cfg.prob.learnNu hθ d
    rw [← hs] at e
    have := loss_ratio _ hF' st hg h2 hc h1 h2' (θ.set 2 (θ[2] + d)) (by rw [e]; exact louder_finite hp)
      (fun h => absurd h (not_lt.2 h3'))
    simp only [max_eq_right h3', zero_mul, add_zero] at this
    rw [this, e]
  have hself : θ.set 2 (θ[2] + 0) = θ := by rw [add_zero]; exact List.set_getElem_self _
  have hv0 := hv 0
  rw [hself, louder_zero] at hv0
  have hval : (Spec.mean2 3 n fun i j => Spec.logRatio s n k t' i j ^ 2) = 2 / (3 * n) := by
    rw [mean2_congr fun i hi j hj => by rw [hrat i hi j hj]]
    unfold Spec.mean2
    have : ∀ i, (∑ j ∈ Finset.range n, r i j ^ 2) = r i 0 ^ 2 := by
      intro i
      refine Finset.sum_eq_single 0 (fun j _ hj => ?_) (fun h => absurd (Finset.mem_range.2 hn) h)
      rw [hr]; simp [hj]
    simp only [this]
    rw [hr]
    norm_num [Finset.sum_range_succ]
  have hnear : ∀ d, (∀ i, i = 1 ∨ i = 2 → Spec.logRatio (s.louder d) n k t' i 0 = r i 0 + d) →
      2 / (3 * n) ≤ Spec.mean2 3 n fun i j => Spec.logRatio (s.louder d) n k t' i j ^ 2 := by
    intro d h
    unfold Spec.mean2
    push_cast
    refine div_le_div_of_nonneg_right ?_ (by positivity)
    have hge : ∀ i, Spec.logRatio (s.louder d) n k t' i 0 ^ 2 ≤ ∑ j ∈ Finset.range n, Spec.logRatio (s.louder d) n k t' i j ^ 2 :=
      fun i => Finset.single_le_sum (f := fun j => Spec.logRatio (s.louder d) n k t' i j ^ 2) (fun j _ => sq_nonneg _)
        (Finset.mem_range.2 hn)
    have e1 := hge 1
    have e2 := hge 2
    have e0 : 0 ≤ ∑ j ∈ Finset.range n, Spec.logRatio (s.louder d) n k t' 0 j ^ 2 := Finset.sum_nonneg fun _ _ => sq_nonneg _
    rw [h 1 (Or.inl rfl), show r 1 0 = 1 by rw [hr]; simp] at e1
    rw [h 2 (Or.inr rfl), show r 2 0 = -1 by rw [hr]; simp] at e2
    rw [Finset.sum_range_succ, Finset.sum_range_succ, Finset.sum_range_one]
    have q : ∀ x : ℝ, (1 + x) ^ 2 + (-1 + x) ^ 2 = 2 + 2 * x ^ 2 := fun x => by ring
    linarith [q d, sq_nonneg d]
  have hlr : ∀ d, ∀ i, i = 1 ∨ i = 2 → Spec.predicted (s.louder d) n k i 0 = Real.exp d * Spec.predicted s n k i 0 →
      Spec.logRatio (s.louder d) n k t' i 0 = r i 0 + d := by
    intro d i hi h
    have hi3 : i < 3 := by omega
    rw [← hrat i hi3 0 hn]
    unfold Spec.logRatio
    rw [h, mul_div_assoc, Real.log_mul (Real.exp_pos d).ne' (div_pos (hyp i hi3 0 hn) (abs_pos.2 (ht0 i hi3 0 hn))).ne',
      Real.log_exp, add_comm]
  have hsh : ∀ i, i = 1 ∨ i = 2 → Spec.floorPart s i (k 0) = 0 := by
    intro i hi
    have hi3 : i < 3 := by omega
    have := C131_share s hp n k hi3 (hk 0 hn) (hm' i hi3 0 hn)
    rw [if_neg (by omega)] at this
    exact (div_eq_zero_iff.1 this).resolve_right (hyp i hi3 0 hn).ne'
  refine ⟨{ cfg with target := Spec.table 3 n fun i j => fin (t' i j) }, t', θ, hθ, hF', hc, rfl, rfl, ?_, ?_, ?_, ?_, ?_⟩
  · show (st.ops.setVec cfg.prob.learnNu θ).params.LifetimeFinite
    rw [← hs]; exact hp
  · show ∀ i < 3, ∀ j < n, ∀ y ∈ st.ops.grid, ∀ z ∈ st.ops.grid, Spec.fitTensor (st.ops.setVec cfg.prob.learnNu θ).params
      (k j) y z (Spec.rowEntry i).1 (Spec.rowEntry i).2 ≠ 1e-12
    rw [← hs, ← hgs]; exact hoff
  · intro d v v' h h' hd
    rw [hv0, hval] at h
    rw [hv d] at h'
    have ev : 2 / (3 * n) = v := by simpa using h
    have ev' : (Spec.mean2 3 n fun i j => Spec.logRatio (s.louder d) n k t' i j ^ 2) = v' := by simpa using h'
    rw [← ev, ← ev']
    refine hnear d fun i hi => hlr d i hi ?_
    have hi3 : i < 3 := by omega
    obtain ⟨hu, hl⟩ := C131_growth s hp hgS h2S hk hi3 hn hd
    have hz : Spec.floorShare s n k i 0 = 0 := by unfold Spec.floorShare; rw [hsh i hi, zero_div]
    rw [hz, mul_zero, sub_zero] at hl
    exact le_antisymm hu hl
  · have n1 := predicted_near s hp (n := n) (k := k) (i := 1) (j := 0) (by norm_num) hn (hk 0 hn) (hoff 1 (by norm_num) 0 hn)
    have n2 := predicted_near s hp (n := n) (k := k) (i := 2) (j := 0) (by norm_num) hn (hk 0 hn) (hoff 2 (by norm_num) 0 hn)
    filter_upwards [n1, n2] with d d1 d2 v v' h h'
    rw [hv0, hval] at h
    rw [hv d] at h'
    have ev : 2 / (3 * n) = v := by simpa using h
    have ev' : (Spec.mean2 3 n fun i j => Spec.logRatio (s.louder d) n k t' i j ^ 2) = v' := by simpa using h'
    rw [← ev, ← ev']
    refine hnear d fun i hi => hlr d i hi ?_
    rcases hi with rfl | rfl
    · rw [d1, hsh 1 (Or.inl rfl), sub_zero, add_zero]
    · rw [d2, hsh 2 (Or.inr rfl), sub_zero, add_zero]
  · rw [hv0, hval]

theorem louder_louder (s : OPS) (m d : ℝ) : (s.louder m).louder d = s.louder (m + d) := by
  unfold OPS.louder
  simp only [add_assoc]

theorem trapz_off_zero {g : List ℝ} (hg : g.Pairwise (· < ·)) (h2 : 2 ≤ g.length) :
    0 < trapz g (g.map fun x => if x = 0 then (0 : ℝ) else 1) := by
  match g, h2 with
  | a :: b :: l, _ =>
    have hab : a < b := (List.pairwise_cons.1 hg).1 b (by simp)
    have htail := (List.pairwise_cons.1 hg).2
    have hn := trapz_nonneg (htail.imp fun h => le_of_lt h) (f := fun x => if x = 0 then (0 : ℝ) else 1)
      fun x _ => by split <;> norm_num
    rw [trapz_cons2]
    have : 0 < ((b - a) / 2) • ((if a = 0 then (0 : ℝ) else 1) + if b = 0 then (0 : ℝ) else 1) := by
      rw [smul_eq_mul]
      refine mul_pos (by linarith) ?_
      by_cases ha : a = 0
      · rw [if_pos ha, if_neg (by rintro rfl; exact absurd hab (by rw [ha]; exact lt_irrefl _))]; norm_num
      · rw [if_neg ha]
        split <;> norm_num
    exact add_pos_of_pos_of_nonneg this hn

theorem quad23_off_axis {g : List ℝ} (hg : g.Pairwise (· < ·)) (h2 : 2 ≤ g.length) :
    0 < quad23 g g fun y z => if y = 0 ∧ z = 0 then (0 : ℝ) else 1 := by
  have hp := trapz_off_zero hg h2
  have hg' := hg.imp (fun h => le_of_lt h)
  refine lt_of_lt_of_le (mul_pos hp hp) ?_
  have : (quad23 g g fun y z => if y = 0 then (0 : ℝ) else if z = 0 then 0 else 1) =
      trapz g (g.map fun x => if x = 0 then (0 : ℝ) else 1) * trapz g (g.map fun x => if x = 0 then (0 : ℝ) else 1) := by
    rw [← trapz_smul_right]
    unfold quad23
    refine trapz_congr fun y _ => ?_
    by_cases hy : y = 0
    · simp only [if_pos hy, mul_zero]
      have := trapz_smul_right g (fun _ => (0 : ℝ)) 0
      simpa using this
    · simp only [if_neg hy, mul_one]
  rw [← this]
  refine quad23_mono hg fun y _ z _ => ?_
  by_cases hy : y = 0
  · rw [if_pos hy]; split <;> norm_num
  · rw [if_neg hy, if_neg (c := y = 0 ∧ z = 0) fun h => hy h.1]; split <;> norm_num

/-- Where the floor acts at most at the wavevector along the wind, all shares are below 1. -/
theorem floorShare_lt_one (s : OPS) (hp : s.params.LifetimeFinite) (hg : s.grid.Pairwise (· < ·)) (h2 : 2 ≤ s.grid.length) {n : ℕ}
    {k : ℕ → ℝ} (hk : ∀ j < n, 0 < k j) {i j : ℕ} (hi : i < 3) (hj : j < n)
    (h : ∀ y ∈ s.grid, ∀ z ∈ s.grid, i ≠ 0 ∨ y ≠ 0 ∨ z ≠ 0 →
      1e-12 < Spec.fitTensor s.params (k j) y z (Spec.rowEntry i).1 (Spec.rowEntry i).2) : Spec.floorShare s n k i j < 1 := by
  have hy := predicted_pos s hp hg h2 hk hi hj
  have hkj := hk j hj
  rw [Spec.floorShare, div_lt_one hy, predicted_eq s hp hi hj hkj, Spec.floorPart]
  refine mul_lt_mul_of_pos_left ?_ hkj
  have h0 := quad23_off_axis hg h2
  have : 1e-12 * (quad23 s.grid s.grid fun y z => if y = 0 ∧ z = 0 then (0 : ℝ) else 1) ≤
      (quad23 s.grid s.grid fun y z => max (Spec.fitTensor s.params (k j) y z (Spec.rowEntry i).1 (Spec.rowEntry i).2) 1e-12) -
      quad23 s.grid s.grid fun y z =>
        if Spec.fitTensor s.params (k j) y z (Spec.rowEntry i).1 (Spec.rowEntry i).2 ≤ 1e-12 then (1e-12 : ℝ) else 0 := by
    rw [← quad23_sub, ← quad23_smul]
    refine quad23_mono hg fun y hy z hz => ?_
    by_cases hyz : y = 0 ∧ z = 0
    · rw [if_pos hyz, mul_zero, sub_nonneg]
      split
      · exact le_max_right _ _
      · exact le_max_of_le_right (by norm_num)
    · have := h y hy z hz (Or.inr (by tauto))
      rw [if_neg hyz, if_neg (not_le.2 this), sub_zero, mul_one]
      exact le_max_right _ _
  nlinarith

/-- **C131** (the floor is negligible for large magnitudes).  All shares of the floor tend to 0 as the magnitude grows. -/
theorem C131_negligible (s : OPS) (hp : s.params.LifetimeFinite) (hg : s.grid.Pairwise (· < ·)) (h2 : 2 ≤ s.grid.length) {n : ℕ}
    {k : ℕ → ℝ} (hk : ∀ j < n, 0 < k j) {E : ℝ} (hE : 0 < E) :
    ∃ m₀, ∀ m ≥ m₀, ∀ i < 3, ∀ j < n, Spec.floorShare (s.louder m) n k i j ≤ E := by
  obtain ⟨m, hm⟩ := louder_off s hp hk
  obtain ⟨s', hs'⟩ : ∃ s', s' = s.louder m := ⟨_, rfl⟩
  have hp' : s'.params.LifetimeFinite := by rw [hs']; exact louder_finite hp
  have hg' : s'.grid.Pairwise (· < ·) := by rw [hs']; exact hg
  have h2' : 2 ≤ s'.grid.length := by rw [hs']; exact h2
  have hm' : ∀ i < 3, ∀ j < n, ∀ y ∈ s'.grid, ∀ z ∈ s'.grid, i ≠ 0 ∨ y ≠ 0 ∨ z ≠ 0 →
      1e-12 < Spec.fitTensor s'.params (k j) y z (Spec.rowEntry i).1 (Spec.rowEntry i).2 := by rw [hs']; exact hm
  have key : ∀ i < 3, ∀ j < n, ∀ᶠ d in atTop, Spec.floorShare (s'.louder d) n k i j ≤ E := by
    intro i hi j hj
    have hy := predicted_pos s' hp' hg' h2' hk hi hj
    have hlt := floorShare_lt_one s' hp' hg' h2' hk hi hj (hm' i hi j hj)
    have hmem := floorShare_mem s' hp' hg' h2' hk hi hj
    have hc : 0 < (1 - Spec.floorShare s' n k i j) * Spec.predicted s' n k i j * E := mul_pos (mul_pos (by linarith) hy) hE
    have hev := (Real.tendsto_exp_atTop.atTop_mul_const hc).eventually (eventually_ge_atTop (Spec.floorPart s' i (k j)))
    filter_upwards [hev, eventually_ge_atTop 0] with d hd hd0
    have he : 1 ≤ Real.exp d := Real.one_le_exp hd0
    have hy' := predicted_pos (s'.louder d) (louder_finite hp') hg' h2' hk hi hj
    have hl := (C131_growth s' hp' hg' h2' hk hi hj hd0).2
    have hpart : Spec.floorPart (s'.louder d) i (k j) = Spec.floorPart s' i (k j) := by
      unfold Spec.floorPart
      congr 1
      refine quad23_congr fun y hy z hz => ?_
      rw [louder_tensor]
      by_cases hx : i ≠ 0 ∨ y ≠ 0 ∨ z ≠ 0
      · have h1 := hm' i hi j hj y hy z hz hx
        rw [if_neg (not_le.2 h1), if_neg (not_le.2 (by nlinarith))]
      · push Not at hx
        obtain ⟨rfl, rfl, rfl⟩ := hx
        have h0 : Spec.fitTensor s'.params (k j) 0 0 (Spec.rowEntry 0).1 (Spec.rowEntry 0).2 = 0 :=
          fitTensor_11_zero _ hp' (hk j hj).ne'
        rw [h0, mul_zero]
    rw [Spec.floorShare, hpart, div_le_iff₀ hy']
    refine hd.trans ?_
    have e : Real.exp d * ((1 - Spec.floorShare s' n k i j) * Spec.predicted s' n k i j * E) =
        E * (Real.exp d * (1 - Spec.floorShare s' n k i j) * Spec.predicted s' n k i j) := by ring
    rw [e]
    refine mul_le_mul_of_nonneg_left (le_trans (mul_le_mul_of_nonneg_right ?_ hy.le) hl) hE.le
    nlinarith [hmem.1]
  have all : ∀ᶠ d in atTop, ∀ i ∈ {x : ℕ | x < 3}, ∀ j ∈ {x : ℕ | x < n}, Spec.floorShare (s'.louder d) n k i j ≤ E :=
    (Set.finite_lt_nat 3).eventually_all.2 fun i hi => (Set.finite_lt_nat n).eventually_all.2 fun j hj => key i hi j hj
  obtain ⟨d₀, hd₀⟩ := eventually_atTop.1 all
  refine ⟨m + d₀, fun m' hm₁ i hi j hj => ?_⟩
  have := hd₀ (m' - m) (by linarith) i hi j hj
  rw [hs', louder_louder, add_sub_cancel] at this
  exact this

end
end Verif
