import Verif.Model.CoherenceFile
import Mathlib.Data.List.Pairwise
import Mathlib.Order.RelClasses
import Mathlib.Data.Prod.Lex
import Mathlib.Data.List.Sort
import Mathlib.Tactic.Linarith

/-!
# C43, C44: coherence data files
-/

namespace Verif
open Fl

noncomputable section

/-! ### Sorted distinct indices -/

theorem mem_uniqueIdx {l : List ℤ} {i : ℤ} : i ∈ uniqueIdx l ↔ i ∈ l := by simp [uniqueIdx]

theorem uniqueIdx_sorted (l : List ℤ) : (uniqueIdx l).Pairwise (· < ·) :=
  (Finset.sortedLT_sort _).pairwise

theorem uniqueIdx_nodup (l : List ℤ) : (uniqueIdx l).Nodup := Finset.sort_nodup _ _

theorem uniqueIdx_eq {l L : List ℤ} (hL : L.Pairwise (· < ·)) (hm : ∀ i, i ∈ L ↔ i ∈ l) : uniqueIdx l = L := by
  have hn : L.Nodup := hL.imp fun h => h.ne
  have hp : (uniqueIdx l).Perm L :=
    (List.perm_ext_iff_of_nodup (uniqueIdx_nodup l) hn).2 fun i => by rw [mem_uniqueIdx, hm]
  exact hp.eq_of_pairwise (fun a b _ _ h h' => (lt_asymm h h').elim) (uniqueIdx_sorted l) hL

theorem firstValues_length (rows : List CohRow) (idx : CohRow → ℤ) (val : CohRow → ℝ) :
    (firstValues rows idx val).length = (uniqueIdx (rows.map idx)).length := by
  unfold firstValues
  have : ∀ l : List ℤ, (∀ i ∈ l, ∃ r ∈ rows, idx r = i) →
      (l.filterMap fun i => (rows.find? fun r => idx r = i).map val).length = l.length := by
    intro l
    induction l with
    | nil => simp
    | cons a l ih =>
      intro h
      obtain ⟨r, hr, hra⟩ := h a (by simp)
      obtain ⟨x, hx⟩ := Option.isSome_iff_exists.1 (List.find?_isSome (p := fun r => decide (idx r = a)).2 ⟨r, hr, by simpa using hra⟩)
      rw [List.filterMap_cons]
      simp only [hx, Option.map_some, List.length_cons]
      rw [ih fun i hi => h i (by simp [hi])]
  exact this _ fun i hi => by simpa using mem_uniqueIdx.1 hi

namespace Spec

/-- The value the file assigns to a pair of indices: the last row carrying them, NaN if there is none. -/
def cohCell (rows : List CohRow) (val : CohRow → ℝ) (i j : ℤ) : Fl :=
  match (rows.filter fun r => r.sepIdx = i ∧ r.freqIdx = j).getLast? with
  | some r => fin (val r)
  | none => nan

/-- What the user expects of the stored arrays: the value at position `(a, b)` is the value the file assigns to the
`a`-th separation index and the `b`-th frequency index. -/
def Faithful (rows : List CohRow) (val : CohRow → ℝ) (g : CohGrid) : Prop :=
  ∀ a b (ha : a < (uniqueIdx (rows.map CohRow.sepIdx)).length) (hb : b < (uniqueIdx (rows.map CohRow.freqIdx)).length),
    g a b = cohCell rows val (uniqueIdx (rows.map CohRow.sepIdx))[a] (uniqueIdx (rows.map CohRow.freqIdx))[b]

end Spec

/-! ### The filling loop -/

theorem fillAll_eq (n m : ℕ) (val : CohRow → ℝ) (rows : List CohRow)
    (h : ∀ r ∈ rows, 0 ≤ r.sepIdx ∧ r.sepIdx < n ∧ 0 ≤ r.freqIdx ∧ r.freqIdx < m) :
    ∃ g, fillAll n m val rows = .ok g ∧ ∀ a b : ℕ, g a b = Spec.cohCell rows val a b := by
  induction rows using List.reverseRecOn with
  | nil => exact ⟨_, rfl, fun a b => by simp [Spec.cohCell]⟩
  | append_singleton rows r ih =>
    obtain ⟨g, hg, hcell⟩ := ih fun r hr => h r (by simp [hr])
    obtain ⟨h1, h2, h3, h4⟩ := h r (by simp)
    have hi : npIndex n r.sepIdx = .ok r.sepIdx.toNat := by simp [npIndex, h1, h2]
    have hj : npIndex m r.freqIdx = .ok r.freqIdx.toNat := by simp [npIndex, h3, h4]
    unfold fillAll at hg ⊢
    rw [List.foldlM_append, hg]
    refine ⟨_, by simp only [List.foldlM_cons, List.foldlM_nil]; change (fillRow n m val g r >>= pure) = _; rw [fillRow, if_pos ⟨h2, h4⟩, hi, hj]; rfl, ?_⟩
    intro a b
    have e1 : a = r.sepIdx.toNat ↔ r.sepIdx = a := by omega
    have e2 : b = r.freqIdx.toNat ↔ r.freqIdx = b := by omega
    simp only [e1, e2]
    by_cases hc : r.sepIdx = a ∧ r.freqIdx = b
    · rw [if_pos hc]
      simp [Spec.cohCell, List.filter_append, hc]
    · rw [if_neg hc, hcell]
      simp [Spec.cohCell, List.filter_append, hc]

/-! ### Complete files -/

/-- Strict lexicographic order of index pairs. -/
def lexLt (p q : ℤ × ℤ) : Prop := p.1 < q.1 ∨ (p.1 = q.1 ∧ p.2 < q.2)

theorem lexLt_irrefl (p : ℤ × ℤ) : ¬ lexLt p p := by rintro (h | ⟨-, h⟩) <;> exact lt_irrefl _ h

theorem lexLt_asymm {p q : ℤ × ℤ} (h : lexLt p q) (h' : lexLt q p) : False := by
  unfold lexLt at *; omega

theorem nodup_of_lex {l : List (ℤ × ℤ)} (h : l.Pairwise lexLt) : l.Nodup :=
  List.Pairwise.imp (S := (· ≠ ·)) (fun {a b} h (e : a = b) => lexLt_irrefl a (by rw [← e] at h; exact h)) h

theorem product_sorted {A B : List ℤ} (hA : A.Pairwise (· < ·)) (hB : B.Pairwise (· < ·)) :
    (A ×ˢ B).Pairwise lexLt := by
  induction A with
  | nil => simp
  | cons a A ih =>
    rw [List.product_cons, List.pairwise_append]
    rw [List.pairwise_cons] at hA
    refine ⟨?_, ih hA.2, ?_⟩
    · rw [List.pairwise_map]
      exact hB.imp fun h => .inr ⟨rfl, h⟩
    · rintro ⟨x1, x2⟩ hx ⟨y1, y2⟩ hy
      simp only [List.mem_map, Prod.mk.injEq] at hx
      obtain ⟨_, _, rfl, _⟩ := hx
      exact .inl (hA.1 _ (List.mem_product.1 hy).1)

theorem product_getElem? {A B : List ℤ} {a b : ℕ} (ha : a < A.length) (hb : b < B.length) :
    (A ×ˢ B)[a * B.length + b]? = some (A[a], B[b]) := by
  induction A generalizing a with
  | nil => simp at ha
  | cons x A ih =>
    rw [List.product_cons]
    rcases a with _ | a
    · rw [List.getElem?_append_left (by simpa using hb)]
      simp [hb]
    · rw [List.getElem?_append_right (by simp; nlinarith)]
      have : (a + 1) * B.length + b - (B.map fun y => (x, y)).length = a * B.length + b := by
        rw [List.length_map, Nat.add_mul, Nat.one_mul]; omega
      rw [this, ih (by simpa using ha)]
      simp

/-- The rows of a complete lexicographically sorted file run through the product of the index lists. -/
theorem complete_sorted {rows : List CohRow}
    (hs : (rows.map fun r => (r.sepIdx, r.freqIdx)).Pairwise lexLt)
    (hc : rows.length = (uniqueIdx (rows.map CohRow.sepIdx)).length * (uniqueIdx (rows.map CohRow.freqIdx)).length) :
    rows.map (fun r => (r.sepIdx, r.freqIdx)) =
      uniqueIdx (rows.map CohRow.sepIdx) ×ˢ uniqueIdx (rows.map CohRow.freqIdx) := by
  set P := rows.map fun r => (r.sepIdx, r.freqIdx) with hP
  have hnd : P.Nodup := nodup_of_lex hs
  have hsub : P ⊆ uniqueIdx (rows.map CohRow.sepIdx) ×ˢ uniqueIdx (rows.map CohRow.freqIdx) := by
    intro p hp
    rw [hP, List.mem_map] at hp
    obtain ⟨r, hr, rfl⟩ := hp
    exact List.mem_product.2 ⟨mem_uniqueIdx.2 (List.mem_map.2 ⟨r, hr, rfl⟩), mem_uniqueIdx.2 (List.mem_map.2 ⟨r, hr, rfl⟩)⟩
  have hlen : (uniqueIdx (rows.map CohRow.sepIdx) ×ˢ uniqueIdx (rows.map CohRow.freqIdx)).length ≤ P.length := by
    rw [List.length_product, hP, List.length_map, hc]
  have hperm := (List.subperm_of_subset hnd hsub).perm_of_length_le hlen
  exact hperm.eq_of_pairwise (fun a b _ _ h h' => (lexLt_asymm h h').elim) hs
    (product_sorted (uniqueIdx_sorted _) (uniqueIdx_sorted _))

theorem filter_eq_singleton {α : Type} {l : List α} {p : α → Bool} {k : ℕ} {x : α} (hk : l[k]? = some x) (hx : p x = true)
    (hu : ∀ k' y, l[k']? = some y → p y = true → k' = k) : l.filter p = [x] := by
  induction l generalizing k with
  | nil => simp at hk
  | cons a l ih =>
    rcases k with _ | k
    · simp only [List.getElem?_cons_zero, Option.some.injEq] at hk
      subst hk
      rw [List.filter_cons_of_pos hx]
      congr 1
      rw [List.filter_eq_nil_iff]
      intro y hy hpy
      obtain ⟨k', hk'⟩ := List.getElem?_of_mem hy
      have := hu (k' + 1) y (by simpa using hk') hpy
      omega
    · have ha : ¬ p a = true := fun h => by have := hu 0 a (by simp) h; omega
      rw [List.filter_cons_of_neg ha]
      refine ih (k := k) (by simpa using hk) ?_
      intro k' y hy hpy
      have := hu (k' + 1) y (by simpa using hy) hpy
      omega

theorem reshape_faithful {rows : List CohRow} (val : CohRow → ℝ)
    (hs : (rows.map fun r => (r.sepIdx, r.freqIdx)).Pairwise lexLt)
    (hc : rows.length = (uniqueIdx (rows.map CohRow.sepIdx)).length * (uniqueIdx (rows.map CohRow.freqIdx)).length) :
    Spec.Faithful rows val (reshapeGrid (uniqueIdx (rows.map CohRow.freqIdx)).length val rows) := by
  intro a b ha hb
  have hprod := complete_sorted hs hc
  have hget := product_getElem? ha hb
  rw [← hprod, List.getElem?_map] at hget
  obtain ⟨r, hr, hri⟩ := Option.map_eq_some_iff.1 hget
  simp only [Prod.mk.injEq] at hri
  have hnd : (rows.map fun r => (r.sepIdx, r.freqIdx)).Nodup :=
    nodup_of_lex hs
  have hf : rows.filter (fun r => decide (r.sepIdx = (uniqueIdx (rows.map CohRow.sepIdx))[a] ∧
      r.freqIdx = (uniqueIdx (rows.map CohRow.freqIdx))[b])) = [r] := by
    refine filter_eq_singleton hr (by simp [hri.1, hri.2]) ?_
    intro k' y hy hpy
    simp only [decide_eq_true_eq] at hpy
    have e : (rows.map fun r => (r.sepIdx, r.freqIdx))[k']? =
        (rows.map fun r => (r.sepIdx, r.freqIdx))[a * (uniqueIdx (rows.map CohRow.freqIdx)).length + b]? := by
      rw [List.getElem?_map, List.getElem?_map, hy, hr]
      simp [hpy.1, hpy.2, hri.1, hri.2]
    have hlt : k' < (rows.map fun r => (r.sepIdx, r.freqIdx)).length := by
      rw [List.length_map]
      exact (List.getElem?_eq_some_iff.1 hy).1
    exact (List.getElem?_inj hlt hnd).1 e
  rw [Spec.cohCell, hf, reshapeGrid, hr]
  rfl

/-! ### C43 -/

/-- **C43** (partial) The arrays stored by `load_coherence_data` are faithful to the file, for complete files sorted by
`(sep_idx, freq_idx)` (any integer indices), and for incomplete files whose index columns take exactly the values
`0..n-1` and `0..m-1` (any order of the rows; a duplicated index pair takes its last row).

Missing for the full statement: complete files in any other order, and incomplete files whose indices are not 0-based; for
those the claim is false (`C43_refuted`). -/
theorem C43_faithful_partial (rows : List CohRow) (hne : rows ≠ [])
    (h : (rows.length = (uniqueIdx (rows.map CohRow.sepIdx)).length * (uniqueIdx (rows.map CohRow.freqIdx)).length ∧
        (rows.map fun r => (r.sepIdx, r.freqIdx)).Pairwise lexLt) ∨
      (rows.length ≠ (uniqueIdx (rows.map CohRow.sepIdx)).length * (uniqueIdx (rows.map CohRow.freqIdx)).length ∧
        (∀ (a : ℕ) ha, (uniqueIdx (rows.map CohRow.sepIdx))[a]'ha = a) ∧
        (∀ (b : ℕ) hb, (uniqueIdx (rows.map CohRow.freqIdx))[b]'hb = b))) :
    ∃ d, loadCoherence rows = (.ok (), some d) ∧ Spec.Faithful rows CohRow.u d.u ∧ Spec.Faithful rows CohRow.v d.v ∧
      Spec.Faithful rows CohRow.w d.w ∧
      d.nSeps = (uniqueIdx (rows.map CohRow.sepIdx)).length ∧ d.nFreqs = (uniqueIdx (rows.map CohRow.freqIdx)).length := by
  obtain ⟨r0, hr0⟩ := List.exists_mem_of_ne_nil _ hne
  have hpos : (uniqueIdx (rows.map CohRow.sepIdx)).length ≠ 0 :=
    (List.length_pos_of_mem (mem_uniqueIdx.2 (List.mem_map.2 ⟨r0, hr0, rfl⟩))).ne'
  have hl1 := firstValues_length rows CohRow.sepIdx CohRow.sep
  have hl2 := firstValues_length rows CohRow.freqIdx CohRow.freq
  unfold loadCoherence
  simp only [hl1, hl2]
  rcases h with ⟨hc, hs⟩ | ⟨hc, hA, hB⟩
  · rw [if_neg (not_not.2 hc)]
    simp only [if_neg hpos]
    exact ⟨_, rfl, reshape_faithful _ hs hc, reshape_faithful _ hs hc, reshape_faithful _ hs hc, rfl, rfl⟩
  · rw [if_pos hc]
    have hb : ∀ r ∈ rows, 0 ≤ r.sepIdx ∧ r.sepIdx < ((uniqueIdx (rows.map CohRow.sepIdx)).length : ℤ) ∧
        0 ≤ r.freqIdx ∧ r.freqIdx < ((uniqueIdx (rows.map CohRow.freqIdx)).length : ℤ) := by
      intro r hr
      obtain ⟨a, ha, hav⟩ := List.getElem_of_mem (mem_uniqueIdx.2 (List.mem_map.2 ⟨r, hr, rfl⟩ : r.sepIdx ∈ rows.map CohRow.sepIdx))
      obtain ⟨b, hb, hbv⟩ := List.getElem_of_mem (mem_uniqueIdx.2 (List.mem_map.2 ⟨r, hr, rfl⟩ : r.freqIdx ∈ rows.map CohRow.freqIdx))
      rw [hA a ha] at hav
      rw [hB b hb] at hbv
      omega
    obtain ⟨gu, hu, hu'⟩ := fillAll_eq _ _ CohRow.u rows hb
    obtain ⟨gv, hv, hv'⟩ := fillAll_eq _ _ CohRow.v rows hb
    obtain ⟨gw, hw, hw'⟩ := fillAll_eq _ _ CohRow.w rows hb
    rw [hu, hv, hw]
    simp only [if_neg hpos]
    refine ⟨_, rfl, ?_, ?_, ?_, rfl, rfl⟩
    · intro a b ha hb'; rw [hA a ha, hB b hb']; exact hu' a b
    · intro a b ha hb'; rw [hA a ha, hB b hb']; exact hv' a b
    · intro a b ha hb'; rw [hA a ha, hB b hb']; exact hw' a b

/-- An incomplete file meeting the hypotheses: three rows of a 2 x 2 grid, in no particular order. -/
example : let rows : List CohRow := [⟨1, 1, 20, 0.2, 0.4, 0.4, 0.4⟩, ⟨0, 0, 10, 0.1, 0.1, 0.1, 0.1⟩, ⟨0, 1, 10, 0.2, 0.2, 0.2, 0.2⟩]
    rows.length ≠ (uniqueIdx (rows.map CohRow.sepIdx)).length * (uniqueIdx (rows.map CohRow.freqIdx)).length ∧
      uniqueIdx (rows.map CohRow.sepIdx) = [0, 1] ∧ uniqueIdx (rows.map CohRow.freqIdx) = [0, 1] := by
  have h1 : uniqueIdx [1, 0, 0] = [0, 1] := uniqueIdx_eq (by simp) (by intro i; simp only [List.mem_cons, List.not_mem_nil, or_false]; omega)
  have h2 : uniqueIdx [1, 0, 1] = [0, 1] := uniqueIdx_eq (by simp) (by intro i; simp only [List.mem_cons, List.not_mem_nil, or_false]; omega)
  simp [h1, h2]

/-- **C43** refuted in general: (1) a complete file written frequency by frequency is transposed silently; (2) a file with
a missing row and 1-based indices loses its last separation and shifts the others; (3) a file with one duplicated and one
missing row passes for complete and is shifted. -/
theorem C43_refuted :
    (∃ rows d, loadCoherence rows = (.ok (), some d) ∧ (rows.map fun r => (r.sepIdx, r.freqIdx)).Nodup ∧
      rows.length = d.nSeps * d.nFreqs ∧ ¬ Spec.Faithful rows CohRow.u d.u) ∧
    (∃ rows d, loadCoherence rows = (.ok (), some d) ∧ (rows.map fun r => (r.sepIdx, r.freqIdx)).Pairwise lexLt ∧
      rows.length < d.nSeps * d.nFreqs ∧ ¬ Spec.Faithful rows CohRow.u d.u) ∧
    (∃ rows d, loadCoherence rows = (.ok (), some d) ∧ ¬ (rows.map fun r => (r.sepIdx, r.freqIdx)).Nodup ∧
      rows.length = d.nSeps * d.nFreqs ∧ ¬ Spec.Faithful rows CohRow.u d.u) := by
  refine ⟨⟨[⟨0, 0, 10, 0.1, 1, 0, 0⟩, ⟨1, 0, 20, 0.1, 2, 0, 0⟩, ⟨0, 1, 10, 0.2, 3, 0, 0⟩, ⟨1, 1, 20, 0.2, 4, 0, 0⟩], ?_⟩,
    ⟨[⟨1, 1, 10, 0.1, 1, 0, 0⟩, ⟨1, 2, 10, 0.2, 2, 0, 0⟩, ⟨2, 1, 20, 0.1, 3, 0, 0⟩], ?_⟩,
    ⟨[⟨0, 0, 10, 0.1, 1, 0, 0⟩, ⟨0, 0, 10, 0.1, 1, 0, 0⟩, ⟨1, 0, 20, 0.1, 3, 0, 0⟩, ⟨1, 1, 20, 0.2, 4, 0, 0⟩], ?_⟩⟩
  · have h1 : uniqueIdx [0, 1, 0, 1] = [0, 1] := uniqueIdx_eq (by simp) (by intro i; simp only [List.mem_cons, List.not_mem_nil, or_false]; omega)
    have h2 : uniqueIdx [0, 0, 1, 1] = [0, 1] := uniqueIdx_eq (by simp) (by intro i; simp only [List.mem_cons, List.not_mem_nil, or_false]; omega)
    refine ⟨_, by simp [loadCoherence, firstValues, h1, h2]; rfl, by simp, by simp [firstValues, h1, h2], ?_⟩
    intro hf
    have := hf 0 1 (by simp [h1]) (by simp [h2])
    simp [h1, h2, Spec.cohCell, reshapeGrid] at this
  · have h1 : uniqueIdx [1, 1, 2] = [1, 2] := uniqueIdx_eq (by simp) (by intro i; simp only [List.mem_cons, List.not_mem_nil, or_false]; omega)
    have h2 : uniqueIdx [1, 2, 1] = [1, 2] := uniqueIdx_eq (by simp) (by intro i; simp only [List.mem_cons, List.not_mem_nil, or_false]; omega)
    refine ⟨_, by simp [loadCoherence, firstValues, h1, h2, fillAll, fillRow, npIndex, pure, Except.pure, bind, Except.bind]; rfl, by simp [lexLt], by simp [firstValues, h1, h2], ?_⟩
    intro hf
    have := hf 0 0 (by simp [h1]) (by simp [h2])
    simp [h1, h2, Spec.cohCell] at this
  · have h1 : uniqueIdx [0, 0, 1, 1] = [0, 1] := uniqueIdx_eq (by simp) (by intro i; simp only [List.mem_cons, List.not_mem_nil, or_false]; omega)
    have h2 : uniqueIdx [0, 0, 0, 1] = [0, 1] := uniqueIdx_eq (by simp) (by intro i; simp only [List.mem_cons, List.not_mem_nil, or_false]; omega)
    refine ⟨_, by simp [loadCoherence, firstValues, h1, h2]; rfl, by simp, by simp [firstValues, h1, h2], ?_⟩
    intro hf
    have := hf 0 1 (by simp [h1]) (by simp [h2])
    simp [h1, h2, Spec.cohCell, reshapeGrid] at this

/-- **C43** The stored separations and frequencies are those of the file in order of their indices. -/
theorem C43_axes (rows : List CohRow) {d : CohFileData} {r : Except PyErr Unit} (h : loadCoherence rows = (r, some d)) :
    d.seps.length = d.nSeps ∧ d.freqs.length = d.nFreqs ∧
    (∀ (f : ℤ → ℝ), (∀ r ∈ rows, r.sep = f r.sepIdx) → d.seps = (uniqueIdx (rows.map CohRow.sepIdx)).map f) ∧
    (∀ (f : ℤ → ℝ), (∀ r ∈ rows, r.freq = f r.freqIdx) → d.freqs = (uniqueIdx (rows.map CohRow.freqIdx)).map f) := by
  have hd : d.seps = firstValues rows CohRow.sepIdx CohRow.sep ∧ d.freqs = firstValues rows CohRow.freqIdx CohRow.freq ∧
      d.nSeps = d.seps.length ∧ d.nFreqs = d.freqs.length := by
    unfold loadCoherence at h
    simp only at h
    split at h
    · simp at h
    · split_ifs at h <;>
      · simp only [Prod.mk.injEq, Option.some.injEq] at h
        rw [← h.2]
        exact ⟨rfl, rfl, rfl, rfl⟩
  have key : ∀ (idx : CohRow → ℤ) (val : CohRow → ℝ) (f : ℤ → ℝ), (∀ r ∈ rows, val r = f (idx r)) →
      firstValues rows idx val = (uniqueIdx (rows.map idx)).map f := by
    intro idx val f hf
    unfold firstValues
    have : ∀ l : List ℤ, (∀ i ∈ l, ∃ r ∈ rows, idx r = i) →
        (l.filterMap fun i => (rows.find? fun r => idx r = i).map val) = l.map f := by
      intro l
      induction l with
      | nil => simp
      | cons a l ih =>
        intro h
        obtain ⟨r, hr, hra⟩ := h a (by simp)
        obtain ⟨x, hx⟩ := Option.isSome_iff_exists.1 (List.find?_isSome (p := fun r => decide (idx r = a)).2 ⟨r, hr, by simpa using hra⟩)
        have hx1 := List.mem_of_find?_eq_some hx
        have hx2 := List.find?_some hx
        simp only [decide_eq_true_eq] at hx2
        rw [List.filterMap_cons]
        simp only [hx, Option.map_some, List.map_cons]
        rw [ih fun i hi => h i (by simp [hi]), hf x hx1, hx2]
    exact this _ fun i hi => by simpa using mem_uniqueIdx.1 hi
  exact ⟨hd.2.2.1.symm, hd.2.2.2.symm, fun f hf => by rw [hd.1]; exact key _ _ f hf,
    fun f hf => by rw [hd.2.1]; exact key _ _ f hf⟩

/-! ### Every file -/

/-- The row a numpy index refers to in an array of `n` rows: negative indices count from the end. -/
def Spec.wrapped (n : ℕ) (i : ℤ) : ℤ := if i < 0 then i + n else i

/-- The value stored for a file taken for incomplete: that of the last row whose indices, of those below the numbers of
separations and frequencies, refer to the cell. -/
def Spec.wrappedCell (rows : List CohRow) (n m : ℕ) (val : CohRow → ℝ) (a b : ℕ) : Fl :=
  match (rows.filter fun r => (r.sepIdx < (n : ℤ) ∧ r.freqIdx < (m : ℤ)) ∧ Spec.wrapped n r.sepIdx = a ∧ Spec.wrapped m r.freqIdx = b).getLast? with
  | some r => fin (val r)
  | none => nan

theorem npIndex_eq {n : ℕ} {i : ℤ} (h : i < n) :
    npIndex n i = if -(n : ℤ) ≤ i then .ok (Spec.wrapped n i).toNat else .error .indexError := by
  unfold npIndex Spec.wrapped
  by_cases h0 : 0 ≤ i
  · rw [if_pos ⟨h0, h⟩, if_pos (by omega), if_neg (by omega)]
  · rw [if_neg (by omega)]
    by_cases h1 : -(n : ℤ) ≤ i
    · rw [if_pos (by omega), if_pos h1, if_pos (by omega)]
    · rw [if_neg (by omega), if_neg h1]

theorem fillAll_wrapped (n m : ℕ) (val : CohRow → ℝ) (rows : List CohRow) :
    ((∀ r ∈ rows, r.sepIdx < n → r.freqIdx < m → -(n : ℤ) ≤ r.sepIdx ∧ -(m : ℤ) ≤ r.freqIdx) →
      ∃ g, fillAll n m val rows = .ok g ∧ ∀ a b : ℕ, g a b = Spec.wrappedCell rows n m val a b) ∧
    ((∃ r ∈ rows, r.sepIdx < n ∧ r.freqIdx < m ∧ ¬ (-(n : ℤ) ≤ r.sepIdx ∧ -(m : ℤ) ≤ r.freqIdx)) →
      fillAll n m val rows = .error .indexError) := by
  induction rows using List.reverseRecOn with
  | nil => exact ⟨fun _ => ⟨_, rfl, fun a b => by simp [Spec.wrappedCell]⟩, by simp⟩
  | append_singleton rows r ih =>
    have hstep : ∀ g, (r.sepIdx < n → r.freqIdx < m → -(n : ℤ) ≤ r.sepIdx ∧ -(m : ℤ) ≤ r.freqIdx) →
        ∃ g', fillRow n m val g r = .ok g' ∧ ∀ a b : ℕ, g' a b =
          if (r.sepIdx < n ∧ r.freqIdx < m) ∧ Spec.wrapped n r.sepIdx = a ∧ Spec.wrapped m r.freqIdx = b then fin (val r) else g a b := by
      intro g h
      unfold fillRow
      by_cases hc : r.sepIdx < n ∧ r.freqIdx < m
      · obtain ⟨h1, h2⟩ := h hc.1 hc.2
        rw [if_pos hc, npIndex_eq hc.1, npIndex_eq hc.2, if_pos h1, if_pos h2]
        refine ⟨_, rfl, fun a b => ?_⟩
        have w1 : 0 ≤ Spec.wrapped n r.sepIdx := by unfold Spec.wrapped; split_ifs <;> omega
        have w2 : 0 ≤ Spec.wrapped m r.freqIdx := by unfold Spec.wrapped; split_ifs <;> omega
        have e1 : a = (Spec.wrapped n r.sepIdx).toNat ↔ Spec.wrapped n r.sepIdx = a := by omega
        have e2 : b = (Spec.wrapped m r.freqIdx).toNat ↔ Spec.wrapped m r.freqIdx = b := by omega
        simp only [e1, e2, hc, and_self, true_and]
      · rw [if_neg hc]
        exact ⟨g, rfl, fun a b => by rw [if_neg (fun h => hc h.1)]⟩
    have hbad : ∀ g, (r.sepIdx < n ∧ r.freqIdx < m ∧ ¬ (-(n : ℤ) ≤ r.sepIdx ∧ -(m : ℤ) ≤ r.freqIdx)) →
        fillRow n m val g r = .error .indexError := by
      rintro g ⟨h1, h2, h3⟩
      unfold fillRow
      rw [if_pos ⟨h1, h2⟩, npIndex_eq h1, npIndex_eq h2]
      by_cases h4 : -(n : ℤ) ≤ r.sepIdx
      · rw [if_pos h4, if_neg (fun h5 => h3 ⟨h4, h5⟩)]
      · rw [if_neg h4]
    have happ : fillAll n m val (rows ++ [r]) = (fillAll n m val rows >>= fun g => fillRow n m val g r) := by
      unfold fillAll
      rw [List.foldlM_append]
      congr 1
      funext g
      simp only [List.foldlM_cons, List.foldlM_nil]
      change (fillRow n m val g r >>= pure) = _
      cases fillRow n m val g r <;> rfl
    constructor
    · intro h
      obtain ⟨g, hg, hcell⟩ := ih.1 fun r hr => h r (by simp [hr])
      obtain ⟨g', hg', hcell'⟩ := hstep g (h r (by simp))
      refine ⟨g', by rw [happ, hg]; exact hg', fun a b => ?_⟩
      rw [hcell']
      by_cases hc : (r.sepIdx < n ∧ r.freqIdx < m) ∧ Spec.wrapped n r.sepIdx = a ∧ Spec.wrapped m r.freqIdx = b
      · rw [if_pos hc]
        unfold Spec.wrappedCell
        rw [List.filter_append, List.filter_singleton, decide_eq_true hc]
        simp
      · rw [if_neg hc, hcell]
        unfold Spec.wrappedCell
        rw [List.filter_append, List.filter_singleton, decide_eq_false hc]
        simp
    · rintro ⟨q, hq, h⟩
      rw [happ]
      by_cases hq' : ∃ r ∈ rows, r.sepIdx < n ∧ r.freqIdx < m ∧ ¬ (-(n : ℤ) ≤ r.sepIdx ∧ -(m : ℤ) ≤ r.freqIdx)
      · rw [ih.2 hq']
        rfl
      · push Not at hq'
        obtain ⟨g, hg, -⟩ := ih.1 fun r hr h1 h2 => by
          by_contra h3
          exact h3 (by
            have := hq' r hr h1 h2
            tauto)
        rw [hg]
        rcases List.mem_append.1 hq with hq | hq
        · exfalso
          have := hq' q hq h.1 h.2.1
          tauto
        · rw [List.mem_singleton] at hq
          rw [hq] at h
          exact hbad g h

/-- **C43** What is stored for every file.  A file with as many rows as separations times frequencies is read in the order of
its rows, whatever their indices.  Any other file is filled in by index: rows whose index is not below the number of
separations (frequencies) are dropped, negative indices count from the end, and a kept row whose index is below minus that
number raises `IndexError` and nothing is stored.  An empty file raises `IndexError`. -/
theorem C43_every_file (rows : List CohRow) :
    let n := (uniqueIdx (rows.map CohRow.sepIdx)).length
    let m := (uniqueIdx (rows.map CohRow.freqIdx)).length
    (rows = [] → (loadCoherence rows).1 = .error .indexError) ∧
    (rows ≠ [] → rows.length = n * m → ∃ d, loadCoherence rows = (.ok (), some d) ∧ ∀ a b, a < n → b < m →
      ∃ h : a * m + b < rows.length, d.u a b = fin rows[a * m + b].u ∧ d.v a b = fin rows[a * m + b].v ∧
        d.w a b = fin rows[a * m + b].w) ∧
    (rows.length ≠ n * m → (∀ r ∈ rows, r.sepIdx < n → r.freqIdx < m → -(n : ℤ) ≤ r.sepIdx ∧ -(m : ℤ) ≤ r.freqIdx) →
      ∃ d, loadCoherence rows = (.ok (), some d) ∧ ∀ a b, d.u a b = Spec.wrappedCell rows n m CohRow.u a b ∧
        d.v a b = Spec.wrappedCell rows n m CohRow.v a b ∧ d.w a b = Spec.wrappedCell rows n m CohRow.w a b) ∧
    (rows.length ≠ n * m → (∃ r ∈ rows, r.sepIdx < n ∧ r.freqIdx < m ∧ ¬ (-(n : ℤ) ≤ r.sepIdx ∧ -(m : ℤ) ≤ r.freqIdx)) →
      loadCoherence rows = (.error .indexError, none)) := by
  intro n m
  have hpos : rows ≠ [] → n ≠ 0 := fun hne => by
    obtain ⟨r0, hr0⟩ := List.exists_mem_of_ne_nil _ hne
    exact (List.length_pos_of_mem (mem_uniqueIdx.2 (List.mem_map.2 ⟨r0, hr0, rfl⟩))).ne'
  have hl1 : (firstValues rows CohRow.sepIdx CohRow.sep).length = n := firstValues_length rows CohRow.sepIdx CohRow.sep
  have hl2 : (firstValues rows CohRow.freqIdx CohRow.freq).length = m := firstValues_length rows CohRow.freqIdx CohRow.freq
  refine ⟨fun h => ?_, fun hne hc => ?_, fun hc h => ?_, fun hc h => ?_⟩
  · subst h
    simp [loadCoherence, firstValues, uniqueIdx]
  · unfold loadCoherence
    simp only [hl1, hl2]
    rw [if_neg (not_not.2 hc)]
    simp only [if_neg (hpos hne)]
    refine ⟨_, rfl, fun a b ha hb => ?_⟩
    have hlt : a * m + b < rows.length := by
      rw [hc]
      calc a * m + b < a * m + m := by omega
        _ = (a + 1) * m := by ring
        _ ≤ n * m := Nat.mul_le_mul_right _ ha
    refine ⟨hlt, ?_⟩
    simp [reshapeGrid, hlt]
  · have hne : rows ≠ [] := by
      rintro rfl
      exact hc (by simp [n, uniqueIdx])
    unfold loadCoherence
    simp only [hl1, hl2]
    rw [if_pos hc]
    obtain ⟨gu, hu, hu'⟩ := (fillAll_wrapped n m CohRow.u rows).1 h
    obtain ⟨gv, hv, hv'⟩ := (fillAll_wrapped n m CohRow.v rows).1 h
    obtain ⟨gw, hw, hw'⟩ := (fillAll_wrapped n m CohRow.w rows).1 h
    rw [hu, hv, hw]
    simp only [if_neg (hpos hne)]
    exact ⟨_, rfl, fun a b => ⟨hu' a b, hv' a b, hw' a b⟩⟩
  · unfold loadCoherence
    simp only [hl1, hl2]
    rw [if_pos hc, (fillAll_wrapped n m CohRow.u rows).2 h]

/-- A file of the last case: two separations with indices -5 and 0. -/
example : let rows : List CohRow := [⟨-5, 0, 10, 0.1, 1, 0, 0⟩, ⟨0, 0, 20, 0.1, 2, 0, 0⟩, ⟨0, 0, 20, 0.1, 2, 0, 0⟩]
    loadCoherence rows = (.error .indexError, none) := by
  intro rows
  have h1 : uniqueIdx (rows.map CohRow.sepIdx) = [-5, 0] := uniqueIdx_eq (by simp) (by intro i; simp [rows])
  have h2 : uniqueIdx (rows.map CohRow.freqIdx) = [0] := uniqueIdx_eq (by simp) (by intro i; simp [rows])
  refine (C43_every_file rows).2.2.2 (by rw [h1, h2]; simp [rows]) ⟨⟨-5, 0, 10, 0.1, 1, 0, 0⟩, by simp [rows], ?_⟩
  rw [h1, h2]
  simp

/-! ### C44 -/

theorem plotSepIndices_eq (n : ℕ) :
    plotSepIndices n = [0, ((n : ℤ) - 1) / 3, 2 * ((n : ℤ) - 1) / 3, (n : ℤ) - 1] := by
  have h3 : ∀ k : ℤ, ⌊((k : ℝ) / 3)⌋ = k / 3 := by
    intro k
    rw [Int.floor_eq_iff]
    have h1 : (k / 3) * 3 ≤ k := by omega
    have h2 : k < (k / 3 + 1) * 3 := by omega
    have h1' : (((k / 3 : ℤ) : ℝ)) * 3 ≤ k := by exact_mod_cast h1
    have h2' : (k : ℝ) < (((k / 3 : ℤ) : ℝ) + 1) * 3 := by exact_mod_cast h2
    constructor
    · rw [le_div_iff₀ (by norm_num)]; exact h1'
    · rw [div_lt_iff₀ (by norm_num)]; exact h2'
  have hcast : ((n : ℝ) - 1) = (((n : ℤ) - 1 : ℤ) : ℝ) := by push_cast; ring
  unfold plotSepIndices
  simp only [zero_mul, Int.floor_zero, one_mul, sub_zero]
  have : (2 : ℝ) * (((n : ℝ) - 1) / 3) = ((2 * ((n : ℤ) - 1) : ℤ) : ℝ) / 3 := by push_cast; ring
  rw [this, h3, hcast, h3, Int.floor_intCast]

/-- **C44** The four selected separations are in range, in non-decreasing order, start at the first and end at the last,
and are pairwise distinct exactly when there are at least four separations. -/
theorem C44_selection {n : ℕ} (hn : 1 ≤ n) :
    (plotSepIndices n).length = 4 ∧ (∀ i ∈ plotSepIndices n, 0 ≤ i ∧ i < n) ∧ (plotSepIndices n).Pairwise (· ≤ ·) ∧
    (plotSepIndices n).head? = some 0 ∧ (plotSepIndices n).getLast? = some ((n : ℤ) - 1) ∧
    ((plotSepIndices n).Nodup ↔ 4 ≤ n) := by
  rw [plotSepIndices_eq]
  refine ⟨rfl, ?_, ?_, rfl, ?_, ?_⟩
  · simp only [List.mem_cons, List.not_mem_nil, or_false, forall_eq_or_imp, forall_eq]
    omega
  · simp only [List.pairwise_cons, List.mem_cons, List.not_mem_nil, or_false, forall_eq_or_imp, forall_eq,
      List.Pairwise.nil, IsEmpty.forall_iff, implies_true, and_true]
    omega
  · simp
  · simp only [List.nodup_cons, List.mem_cons, List.not_mem_nil, or_false, not_or, not_false_eq_true, List.nodup_nil,
      and_true]
    omega

end
end Verif
