import Verif.Props.Data
import Verif.Model.Calibration

/-!
# C41: what `CalibrationProblem.plot` draws
-/

namespace Verif
open Fl

noncomputable section

namespace Spec

/-- The tensor entry named by the title of each panel (`F_11, F_22, F_33, -F_13, F_23, F_12`). -/
def panelEntry : List (Fin 3 × Fin 3) := [(0, 0), (1, 1), (2, 2), (0, 2), (1, 2), (0, 1)]

/-- The sign of the title. -/
def panelSign (i : ℕ) : ℝ := if i = 3 then -1 else 1

/-- The data curve that belongs in panel `i`: the entry named by the title divided by `ustar^2`. -/
def panelData (ustar : ℝ) (ops : List Mat3) (i : ℕ) : List Fl :=
  ops.map fun m =>
    let ij := panelEntry.getD i (0, 0)
    fin (panelSign i) * (m ij.1 ij.2 / fin (ustar ^ 2))

/-- Panels that carry a data curve for a given number of components. -/
def HasData (nc i : ℕ) : Prop := i < nc

end Spec

theorem plot_rows (l : List (List Fl)) (n : ℕ) (hl : ∀ r ∈ l, r.length = n) (hne : 0 < l.length) (k : ℕ)
    (hk : k = l.length) : viewRows k (l.flatten.length / k) l.flatten = l := by
  subst hk
  have : l.flatten.length = l.length * n := by
    clear hne
    induction l with
    | nil => simp
    | cons a l ih =>
      simp only [List.flatten_cons, List.length_append, List.length_cons]
      rw [ih fun r hr => hl r (by simp [hr]), hl a (by simp)]
      ring
  rw [this, Nat.mul_div_cancel_left _ hne]
  exact viewRows_flatten _ l hl

/-- The rows drawn when the columns are concatenated in the order `ents`. -/
theorem plot_view (ents : List (Fin 3 × Fin 3)) (hne : ents ≠ []) (ops : List Mat3) (c : Fl) :
    let flat := (ents.map fun e => ops.map fun m : Mat3 => m e.1 e.2).flatten.map fun x => x / c
    viewRows ents.length (flat.length / ents.length) flat = ents.map fun e => ops.map fun m : Mat3 => m e.1 e.2 / c := by
  intro flat
  have hflat : flat = (ents.map fun e => ops.map fun m : Mat3 => m e.1 e.2 / c).flatten := by
    simp only [flat, List.map_flatten, List.map_map]
    congr 1
    apply List.map_congr_left
    intro e _
    simp [List.map_map]
  rw [hflat]
  exact plot_rows _ ops.length (by simp; intros; subst_vars; simp) (by simpa using List.length_pos_iff.2 hne) _ (by simp)

theorem plotDataVals_eq (src : PlotSource) (nc : ℕ) (ops : List Mat3) :
    plotDataVals src nc ops = ((if nc = 3 then [(0, 0), (1, 1), (2, 2)]
      else if nc = 4 then [(0, 0), (1, 1), (2, 2), (0, 2)]
      else match src with
        | .argument => [(0, 0), (1, 1), (2, 2), (0, 2), (0, 1), (1, 2)]
        | .stored => [(0, 0), (1, 1), (2, 2), (0, 2), (1, 2), (0, 1)] : List (Fin 3 × Fin 3)).map
          fun e => ops.map fun m : Mat3 => m e.1 e.2).flatten := by
  unfold plotDataVals
  split_ifs
  · simp
  · simp
  · cases src <;> simp

/-- **C41** (partial) For data passed as argument every panel compares like with like, for 3, 4 and 6 components; for the
data stored by `calibrate` this holds with 3 and 4 components, and for the first four panels with 6.

Missing for the full statement: panels 23 and 12 with six stored components, where the claim is false
(`C41_stored_refuted`). -/
theorem C41_panels_partial (src : PlotSource) (nc : ℕ) (hnc : nc = 3 ∨ nc = 4 ∨ nc = 6) (ustar : ℝ) (ops : List Mat3)
    (model : List (List Fl)) :
    ∃ panels, plotPanels src nc ustar ops model = .ok panels ∧ panels.length = 6 ∧
      ∀ i, i < 6 → (panels.getD i ([], none)).1 = (model.getD i []).map (fun x => fin (Spec.panelSign i) * x) ∧
        (¬ Spec.HasData nc i → (panels.getD i ([], none)).2 = none) ∧
        (Spec.HasData nc i → (match src with | .argument => True | .stored => nc ≠ 6 ∨ i < 4) →
          (panels.getD i ([], none)).2 = some (Spec.panelData ustar ops i)) := by
  unfold plotPanels
  rw [plotDataVals_eq]
  rcases hnc with rfl | rfl | rfl
  · simp only [dataComponentMap, if_true]
    have hv := plot_view [(0, 0), (1, 1), (2, 2)] (by simp) ops (fin (ustar ^ 2))
    simp only [List.length_cons, List.length_nil, Nat.zero_add, Nat.reduceAdd] at hv
    rw [hv]
    refine ⟨_, rfl, by simp, ?_⟩
    intro i hi
    interval_cases i <;>
      simp [Spec.panelSign, Spec.HasData, Spec.panelData, Spec.panelEntry, List.range_succ, List.lookup]
  · simp only [dataComponentMap, if_true, show ¬ (4 : ℕ) = 3 by decide, if_false]
    have hv := plot_view [(0, 0), (1, 1), (2, 2), (0, 2)] (by simp) ops (fin (ustar ^ 2))
    simp only [List.length_cons, List.length_nil, Nat.zero_add, Nat.reduceAdd] at hv
    rw [hv]
    refine ⟨_, rfl, by simp, ?_⟩
    intro i hi
    interval_cases i <;>
      simp [Spec.panelSign, Spec.HasData, Spec.panelData, Spec.panelEntry, List.range_succ, List.lookup]
  · simp only [dataComponentMap, if_true, show ¬ (6 : ℕ) = 3 by decide, show ¬ (6 : ℕ) = 4 by decide, if_false]
    cases src
    · have hv := plot_view [(0, 0), (1, 1), (2, 2), (0, 2), (0, 1), (1, 2)] (by simp) ops (fin (ustar ^ 2))
      simp only [List.length_cons, List.length_nil, Nat.zero_add, Nat.reduceAdd] at hv
      rw [hv]
      refine ⟨_, rfl, by simp, ?_⟩
      intro i hi
      interval_cases i <;>
        simp [Spec.panelSign, Spec.HasData, Spec.panelData, Spec.panelEntry, List.range_succ, List.lookup]
    · have hv := plot_view [(0, 0), (1, 1), (2, 2), (0, 2), (1, 2), (0, 1)] (by simp) ops (fin (ustar ^ 2))
      simp only [List.length_cons, List.length_nil, Nat.zero_add, Nat.reduceAdd] at hv
      rw [hv]
      refine ⟨_, rfl, by simp, ?_⟩
      intro i hi
      interval_cases i <;>
        simp [Spec.panelSign, Spec.HasData, Spec.panelData, Spec.panelEntry, List.range_succ, List.lookup]

/-- **C41** refuted for stored data with six components: the data curves of the panels 23 and 12 are exchanged, whatever
the data. -/
theorem C41_stored_swapped (ustar : ℝ) (ops : List Mat3) (model : List (List Fl)) :
    ∃ panels, plotPanels .stored 6 ustar ops model = .ok panels ∧
      (panels.getD 4 ([], none)).2 = some (Spec.panelData ustar ops 5) ∧
      (panels.getD 5 ([], none)).2 = some (Spec.panelData ustar ops 4) := by
  unfold plotPanels
  rw [plotDataVals_eq]
  simp only [dataComponentMap, if_true, show ¬ (6 : ℕ) = 3 by decide, show ¬ (6 : ℕ) = 4 by decide, if_false]
  have hv := plot_view [(0, 0), (1, 1), (2, 2), (0, 2), (1, 2), (0, 1)] (by simp) ops (fin (ustar ^ 2))
  simp only [List.length_cons, List.length_nil, Nat.zero_add, Nat.reduceAdd] at hv
  rw [hv]
  refine ⟨_, rfl, ?_, ?_⟩ <;>
    simp [Spec.panelSign, Spec.panelData, Spec.panelEntry, List.range_succ, List.lookup]

/-- **C41** refuted: a data tensor for which the drawn curve is not the one named by the panel. -/
theorem C41_stored_refuted : ∃ (ustar : ℝ) (ops : List Mat3) (model : List (List Fl)) (panels : _),
    plotPanels .stored 6 ustar ops model = .ok panels ∧
      (panels.getD 4 ([], none)).2 ≠ some (Spec.panelData ustar ops 4) := by
  obtain ⟨p, hp, h4, -⟩ := C41_stored_swapped 1 [fun i j => if i = 0 ∧ j = 1 then fin 1 else fin 0] []
  refine ⟨1, _, [], p, hp, ?_⟩
  rw [h4]
  simp [Spec.panelData, Spec.panelEntry, Spec.panelSign, fin_div_fin, fin_mul_fin]

end
end Verif
