import Verif.Model.Generator

/-!
# Lists given by functions, arrays
-/

namespace Verif
open Fl

noncomputable section
open Classical

section
variable {α β γ : Type}

@[simp] theorem tab_length (n : ℕ) (f : ℕ → α) : (tab n f).length = n := by simp [tab]

theorem tab_getElem? (n : ℕ) (f : ℕ → α) (i : ℕ) : (tab n f)[i]? = if i < n then some (f i) else none := by
  unfold tab
  rw [List.getElem?_map]
  by_cases h : i < n
  · rw [List.getElem?_range h, if_pos h]; rfl
  · rw [List.getElem?_eq_none (by simpa using h), if_neg h]; rfl

theorem tab_getD {n : ℕ} (f : ℕ → α) {i : ℕ} (h : i < n) (d : α) : (tab n f).getD i d = f i := by
  rw [List.getD_eq_getElem?_getD, tab_getElem?, if_pos h]; rfl

theorem tab_congr {n : ℕ} {f g : ℕ → α} (h : ∀ i < n, f i = g i) : tab n f = tab n g :=
  List.map_congr_left fun i hi => h i (List.mem_range.1 hi)

theorem tab_map (n : ℕ) (f : ℕ → α) (g : α → β) : (tab n f).map g = tab n fun i => g (f i) := by
  unfold tab; rw [List.map_map]; rfl

theorem tab_ext {n : ℕ} {l : List α} {f : ℕ → α} (hl : l.length = n) (h : ∀ i < n, l[i]? = some (f i)) : l = tab n f := by
  apply List.ext_getElem?
  intro i
  rw [tab_getElem?]
  split_ifs with hi
  · exact h i hi
  · rw [List.getElem?_eq_none (by omega)]

theorem zipWith_tab (n : ℕ) (f : ℕ → α) (g : ℕ → β) (k : α → β → γ) :
    List.zipWith k (tab n f) (tab n g) = tab n fun i => k (f i) (g i) := by
  refine tab_ext (by simp) fun i hi => ?_
  rw [List.getElem?_zipWith, tab_getElem?, tab_getElem?, if_pos hi, if_pos hi]

theorem zip_tab (n : ℕ) (f : ℕ → α) (g : ℕ → β) : (tab n f).zip (tab n g) = tab n fun i => (f i, g i) := by
  unfold List.zip; exact zipWith_tab n f g Prod.mk

theorem tab_drop (n m : ℕ) (f : ℕ → α) : (tab n f).drop m = tab (n - m) fun i => f (m + i) := by
  refine tab_ext (by simp) fun i hi => ?_
  rw [List.getElem?_drop, tab_getElem?, if_pos (by omega)]

theorem tab_take (n m : ℕ) (f : ℕ → α) : (tab n f).take m = tab (min m n) f := by
  refine tab_ext (by simp) fun i hi => ?_
  rw [List.getElem?_take, if_pos (by omega), tab_getElem?, if_pos (by omega)]

theorem tab_append (n m : ℕ) (f : ℕ → α) : (tab n f ++ tab m fun i => f (n + i)) = tab (n + m) f := by
  refine tab_ext (by simp) fun i hi => ?_
  rw [List.getElem?_append]
  simp only [tab_length, tab_getElem?]
  by_cases h : i < n
  · rw [if_pos h, if_pos h]
  · rw [if_neg h, if_pos (by omega)]; congr 2; omega

theorem tab_rotate {n m : ℕ} (h : m ≤ n) (f : ℕ → α) :
    (tab n f).rotate m = (tab (n - m) fun i => f (m + i)) ++ tab m f := by
  rw [List.rotate_eq_drop_append_take (by simpa using h), tab_drop, tab_take, min_eq_left h]

/-- Position denoted by a slice bound, with a default for a missing bound. -/
def boundIdx (n d : ℕ) : Option ℤ → ℕ
  | none => d
  | some i => sliceIdx n i

/-- A slice of a tabulated list. -/
theorem pySlice_tab (n : ℕ) (f : ℕ → α) (a b : Option ℤ) :
    pySlice (tab n f) a b = tab (min (boundIdx n n b) n - boundIdx n 0 a) fun i => f (boundIdx n 0 a + i) := by
  unfold pySlice
  simp only [tab_length]
  rw [tab_take, tab_drop]
  cases b <;> cases a <;> rfl

theorem sliceIdx_nonneg {n : ℕ} {i : ℤ} (h : 0 ≤ i) : sliceIdx n i = min i.toNat n := by
  unfold sliceIdx; rw [if_neg (by omega)]

theorem sliceIdx_neg {n : ℕ} {i : ℤ} (h : i < 0) : sliceIdx n i = (i + n).toNat := by
  unfold sliceIdx; rw [if_pos h]

/-- `l[a : -b]` for positive `a`, `b`. -/
theorem pySlice_mid {n : ℕ} (f : ℕ → α) {a b : ℤ} (ha : 0 ≤ a) (hb : 0 < b) (hn : a + b ≤ n) :
    pySlice (tab n f) (some a) (some (-b)) = tab (n - a.toNat - b.toNat) fun i => f (a.toNat + i) := by
  rw [pySlice_tab]
  simp only [boundIdx]
  rw [sliceIdx_nonneg ha, sliceIdx_neg (by omega), min_eq_left (a := a.toNat) (by omega)]
  congr 1
  omega

/-- `l[: -b]` for positive `b`. -/
theorem pySlice_init {n : ℕ} (f : ℕ → α) {b : ℤ} (hb : 0 < b) (hn : b ≤ n) :
    pySlice (tab n f) none (some (-b)) = tab (n - b.toNat) f := by
  rw [pySlice_tab]
  simp only [boundIdx]
  rw [sliceIdx_neg (by omega)]
  simp only [zero_add]
  congr 1
  omega

theorem range_eq_tab (n : ℕ) : List.range n = tab n fun i => i := by simp [tab]

end

/-- Array with the given shape. -/
theorem ofFn_slice {α : Type} {n1 n2 n3 : ℕ} (f : ℕ → ℕ → ℕ → Fin 3 → α) {a a' b b' c c' : ℤ}
    (ha : 0 ≤ a) (ha' : 0 < a') (h1 : a + a' ≤ n1) (hb : 0 ≤ b) (hb' : 0 < b') (h2 : b + b' ≤ n2) (hc : 0 ≤ c) (hc' : 0 < c')
    (h3 : c + c' ≤ n3) :
    (Arr.ofFn n1 n2 n3 f).slice (some a, some (-a')) (some b, some (-b')) (some c, some (-c')) =
      Arr.ofFn (n1 - a.toNat - a'.toNat) (n2 - b.toNat - b'.toNat) (n3 - c.toNat - c'.toNat)
        fun x y z => f (a.toNat + x) (b.toNat + y) (c.toNat + z) := by
  unfold Arr.slice Arr.ofFn
  simp only
  rw [range_eq_tab, range_eq_tab, pySlice_mid _ hb hb' h2, pySlice_mid _ hc hc' h3, tab_length, tab_length,
    pySlice_mid _ ha ha' h1, tab_map]
  congr 1
  refine tab_congr fun x _ => ?_
  rw [pySlice_mid _ hb hb' h2, tab_map]
  refine tab_congr fun y _ => ?_
  rw [pySlice_mid _ hc hc' h3]

theorem ofFn_entry {n1 n2 n3 : ℕ} (f : ℕ → ℕ → ℕ → Fin 3 → ℝ) {a b c : ℕ} (ha : a < n1) (hb : b < n2) (hc : c < n3) (i : Fin 3) :
    (Arr.ofFn n1 n2 n3 f).entry a b c i = f a b c i := by
  unfold Arr.entry Arr.ofFn
  simp only
  rw [tab_getD _ ha, tab_getD _ hb, tab_getD _ hc]

theorem ofFn_congr {α : Type} {n1 n2 n3 : ℕ} {f f' : ℕ → ℕ → ℕ → Fin 3 → α}
    (h : ∀ a < n1, ∀ b < n2, ∀ c < n3, f a b c = f' a b c) : Arr.ofFn n1 n2 n3 f = Arr.ofFn n1 n2 n3 f' := by
  unfold Arr.ofFn
  congr 1
  exact tab_congr fun a ha => tab_congr fun b hb => tab_congr fun c hc => h a ha b hb c hc

theorem flatMap_tab {α β : Type} (n : ℕ) (f : ℕ → α) (g : α → List β) :
    (tab n f).flatMap g = (List.range n).flatMap fun i => g (f i) := by
  unfold tab; rw [List.flatMap_map]

theorem sum_map_flatMap {α : Type} (l : List α) (g : α → List ℝ) (h : ℝ → ℝ) :
    ((l.flatMap g).map h).sum = (l.map fun x => ((g x).map h).sum).sum := by
  induction l with
  | nil => simp
  | cons x l ih => simp [ih]

theorem sum_map_range (n : ℕ) (h : ℕ → ℝ) : ((List.range n).map h).sum = ∑ i ∈ Finset.range n, h i := by
  rw [← List.sum_toFinset]
  · rw [List.toFinset_range]
  · exact List.nodup_range

/-- Sum of a function of the entries of an array. -/
theorem flat_sum {n1 n2 n3 : ℕ} (f : ℕ → ℕ → ℕ → Fin 3 → ℝ) (h : ℝ → ℝ) :
    ((Arr.ofFn n1 n2 n3 f).flat.map h).sum =
      ∑ a ∈ Finset.range n1, ∑ b ∈ Finset.range n2, ∑ c ∈ Finset.range n3, ∑ i, h (f a b c i) := by
  unfold Arr.flat Arr.ofFn
  simp only
  rw [flatMap_tab, sum_map_flatMap, sum_map_range]
  refine Finset.sum_congr rfl fun a _ => ?_
  rw [flatMap_tab, sum_map_flatMap, sum_map_range]
  refine Finset.sum_congr rfl fun b _ => ?_
  rw [flatMap_tab, sum_map_flatMap, sum_map_range]
  refine Finset.sum_congr rfl fun c _ => ?_
  rw [Fin.sum_univ_three]
  simp [add_assoc]

theorem flat_length {n1 n2 n3 : ℕ} (f : ℕ → ℕ → ℕ → Fin 3 → ℝ) : (Arr.ofFn n1 n2 n3 f).flat.length = n1 * n2 * n3 * 3 := by
  have h := flat_sum (n1 := n1) (n2 := n2) (n3 := n3) f fun _ => 1
  have h2 : ((Arr.ofFn n1 n2 n3 f).flat.map fun _ => (1 : ℝ)).sum = ((Arr.ofFn n1 n2 n3 f).flat.length : ℝ) := by
    rw [List.map_const', List.sum_replicate, nsmul_eq_mul, mul_one]
  rw [h2] at h
  simp only [Finset.sum_const, Finset.card_univ, Fintype.card_fin, Finset.card_range, nsmul_eq_mul, mul_one] at h
  have : ((Arr.ofFn n1 n2 n3 f).flat.length : ℝ) = ((n1 * n2 * n3 * 3 : ℕ) : ℝ) := by rw [h]; push_cast; ring
  exact_mod_cast this

theorem mem_flat {n1 n2 n3 : ℕ} (f : ℕ → ℕ → ℕ → Fin 3 → ℝ) (v : ℝ) :
    v ∈ (Arr.ofFn n1 n2 n3 f).flat ↔ ∃ a < n1, ∃ b < n2, ∃ c < n3, ∃ i, v = f a b c i := by
  unfold Arr.flat Arr.ofFn
  simp only [flatMap_tab, List.mem_flatMap, List.mem_range]
  have : ∀ w : Fin 3 → ℝ, v ∈ [w 0, w 1, w 2] ↔ ∃ i, v = w i := by
    intro w
    simp only [List.mem_cons, List.not_mem_nil, or_false, Fin.exists_fin_succ]
    simp [Fin.exists_fin_succ]
  simp only [this]

theorem any_ofFn {n1 n2 n3 : ℕ} (f : ℕ → ℕ → ℕ → Fin 3 → ℝ) :
    (Arr.ofFn n1 n2 n3 f).any ↔ ∃ a < n1, ∃ b < n2, ∃ c < n3, ∃ i, f a b c i ≠ 0 := by
  unfold Arr.any
  simp only [mem_flat]
  constructor
  · rintro ⟨_, ⟨a, ha, b, hb, c, hc, i, rfl⟩, h⟩
    exact ⟨a, ha, b, hb, c, hc, i, h⟩
  · rintro ⟨a, ha, b, hb, c, hc, i, h⟩
    exact ⟨_, ⟨a, ha, b, hb, c, hc, i, rfl⟩, h⟩

end
end Verif
