import Verif.Model.WindPlot
import Verif.Props.GeneratorFields

/-!
# Plotted coordinates and values (C75)
-/

namespace Verif
open Fl

noncomputable section

theorem flatMap_get {α : Type} {m : ℕ} : ∀ {n : ℕ} (f : ℕ → List α), (∀ a, (f a).length = m) → ∀ a < n, ∀ j < m,
    ((List.range n).flatMap f)[a * m + j]? = (f a)[j]? := by
  intro n
  induction n with
  | zero => intro f _ a ha; omega
  | succ n ih =>
    intro f hf a ha j hj
    rw [List.range_succ, List.flatMap_append]
    have hlen : ((List.range n).flatMap f).length = n * m := by
      rw [List.length_flatMap]
      simp [hf]
    by_cases h : a < n
    · rw [List.getElem?_append_left (by rw [hlen]; nlinarith), ih f hf a h j hj]
    · obtain rfl : a = n := by omega
      rw [List.getElem?_append_right (by rw [hlen]; omega), hlen]
      simp

theorem flatten_length (x : Cube) : x.flatten.length = x.n1 * x.n2 * x.n3 := by
  unfold Cube.flatten
  simp [List.length_flatMap, mul_assoc]

theorem flatten_get (x : Cube) {a b c : ℕ} (ha : a < x.n1) (hb : b < x.n2) (hc : c < x.n3) :
    x.flatten[(a * x.n2 + b) * x.n3 + c]? = some (x.val a b c) := by
  unfold Cube.flatten
  have e : (a * x.n2 + b) * x.n3 + c = a * (x.n2 * x.n3) + (b * x.n3 + c) := by ring
  rw [e, flatMap_get (m := x.n2 * x.n3) _ (by intro a; simp [List.length_flatMap]) a ha _ (by nlinarith),
    flatMap_get (m := x.n3) _ (by intro b; simp) b hb c hc]
  simp [hc]

/-- Every position of a flattened array of this shape is the position of exactly one index triple. -/
theorem flat_index {n1 n2 n3 n : ℕ} (h : n < n1 * n2 * n3) :
    ∃ a < n1, ∃ b < n2, ∃ c < n3, n = (a * n2 + b) * n3 + c := by
  have h3 : 0 < n3 := Nat.pos_of_ne_zero (by rintro rfl; simp at h)
  have h2 : 0 < n2 := Nat.pos_of_ne_zero (by rintro rfl; simp at h)
  refine ⟨n / n3 / n2, ?_, n / n3 % n2, Nat.mod_lt _ h2, n % n3, Nat.mod_lt _ h3, ?_⟩
  · rw [Nat.div_lt_iff_lt_mul h2, Nat.div_lt_iff_lt_mul h3]; exact h
  · rw [Nat.div_add_mod' (n / n3) n2, Nat.div_add_mod']

theorem createGrid_at (s : ℝ × ℝ × ℝ) {n1 n2 n3 a b c : ℕ} (ha : a < n1) (hb : b < n2) (hc : c < n3) :
    (createGrid s n1 n2 n3).1.flatten[(a * n2 + b) * n3 + c]? = some (fin (s.1 * a)) ∧
    (createGrid s n1 n2 n3).2.1.flatten[(a * n2 + b) * n3 + c]? = some (fin (s.2.1 * b)) ∧
    (createGrid s n1 n2 n3).2.2.flatten[(a * n2 + b) * n3 + c]? = some (fin (s.2.2 * c)) := by
  have hl : ∀ (h : ℝ) n, (gridAxis h n).length = n := fun h n => by simp [gridAxis]
  have hg : ∀ (h : ℝ) (n k : ℕ), k < n → (gridAxis h n).getD k 0 = h * k := by
    intro h n k hk; simp [gridAxis, List.getD_eq_getElem?_getD, hk]
  refine ⟨?_, ?_, ?_⟩
  · have := flatten_get (createGrid s n1 n2 n3).1 (a := a) (b := b) (c := c) (by simpa [createGrid, hl])
      (by simpa [createGrid, hl]) (by simpa [createGrid, hl])
    simp only [createGrid, hl, hg _ _ _ ha] at this ⊢
    exact this
  · have := flatten_get (createGrid s n1 n2 n3).2.1 (a := a) (b := b) (c := c) (by simpa [createGrid, hl])
      (by simpa [createGrid, hl]) (by simpa [createGrid, hl])
    simp only [createGrid, hl, hg _ _ _ hb] at this ⊢
    exact this
  · have := flatten_get (createGrid s n1 n2 n3).2.2 (a := a) (b := b) (c := c) (by simpa [createGrid, hl])
      (by simpa [createGrid, hl]) (by simpa [createGrid, hl])
    simp only [createGrid, hl, hg _ _ _ hc] at this ⊢
    exact this

theorem createGrid_length (s : ℝ × ℝ × ℝ) (n1 n2 n3 : ℕ) :
    (createGrid s n1 n2 n3).1.flatten.length = n1 * n2 * n3 ∧ (createGrid s n1 n2 n3).2.1.flatten.length = n1 * n2 * n3 ∧
    (createGrid s n1 n2 n3).2.2.flatten.length = n1 * n2 * n3 := by
  simp [flatten_length, createGrid, gridAxis]

/-- Specification: a trace shows the function `v` on the grid of `n1 x n2 x n3` points with the given spacing: there is one
plotted point for each grid point, at its location, with its value, and no other points. -/
def Trace.Shows (t : Trace) (s : ℝ × ℝ × ℝ) (n1 n2 n3 : ℕ) (v : ℕ → ℕ → ℕ → Fl) : Prop :=
  (t.x.length = n1 * n2 * n3 ∧ t.y.length = n1 * n2 * n3 ∧ t.z.length = n1 * n2 * n3 ∧ t.value.length = n1 * n2 * n3) ∧
  ∃ pos : Fin n1 × Fin n2 × Fin n3 ≃ Fin (n1 * n2 * n3), ∀ a b c,
    t.x[(pos (a, b, c) : ℕ)]? = some (fin (s.1 * a)) ∧ t.y[(pos (a, b, c) : ℕ)]? = some (fin (s.2.1 * b)) ∧
    t.z[(pos (a, b, c) : ℕ)]? = some (fin (s.2.2 * c)) ∧ t.value[(pos (a, b, c) : ℕ)]? = some (v a b c)

theorem shows_of {t : Trace} {s : ℝ × ℝ × ℝ} {n1 n2 n3 : ℕ} {v : ℕ → ℕ → ℕ → Fl}
    (hl : t.x.length = n1 * n2 * n3 ∧ t.y.length = n1 * n2 * n3 ∧ t.z.length = n1 * n2 * n3 ∧
      t.value.length = n1 * n2 * n3)
    (h : ∀ a < n1, ∀ b < n2, ∀ c < n3, t.x[(a * n2 + b) * n3 + c]? = some (fin (s.1 * a)) ∧
      t.y[(a * n2 + b) * n3 + c]? = some (fin (s.2.1 * b)) ∧ t.z[(a * n2 + b) * n3 + c]? = some (fin (s.2.2 * c)) ∧
      t.value[(a * n2 + b) * n3 + c]? = some (v a b c)) : t.Shows s n1 n2 n3 v := by
  refine ⟨hl, ?_⟩
  have lt : ∀ (a : Fin n1) (b : Fin n2) (c : Fin n3), (a.val * n2 + b.val) * n3 + c.val < n1 * n2 * n3 := by
    intro a b c
    have h1 : a.val * n2 + b.val + 1 ≤ n1 * n2 := by nlinarith [a.isLt, b.isLt]
    nlinarith [c.isLt]
  let F : Fin n1 × Fin n2 × Fin n3 → Fin (n1 * n2 * n3) := fun p => ⟨(p.1.val * n2 + p.2.1.val) * n3 + p.2.2.val, lt _ _ _⟩
  have hsurj : Function.Surjective F := by
    rintro ⟨n, hn⟩
    obtain ⟨a, ha, b, hb, c, hc, e⟩ := flat_index hn
    exact ⟨(⟨a, ha⟩, ⟨b, hb⟩, ⟨c, hc⟩), Fin.ext e.symm⟩
  have hbij : Function.Bijective F := by
    refine (Fintype.bijective_iff_surjective_and_card F).2 ⟨hsurj, ?_⟩
    simp [mul_assoc]
  refine ⟨Equiv.ofBijective F hbij, fun a b c => ?_⟩
  exact h a a.isLt b b.isLt c c.isLt

/-- **C75.**  With `reshape=True` each component is shown, for every shape and spacing, at the grid points to which it
belongs; a field with fewer than three components raises. -/
theorem C75_components (s : ℝ × ℝ × ℝ) (f : Field4) (hc : 3 ≤ f.c) :
    ∃ t, plotComponents s f true = .ok t ∧ ∀ i : Fin 3, (t i).Shows s f.n1 f.n2 f.n3 fun a b c => f.val a b c i := by
  have ho : plotComponents s f true = .ok fun i => ⟨(createGrid s f.n1 f.n2 f.n3).1.flatten,
      (createGrid s f.n1 f.n2 f.n3).2.1.flatten, (createGrid s f.n1 f.n2 f.n3).2.2.flatten,
      (Cube.mk f.n1 f.n2 f.n3 fun a b c => f.val a b c i).flatten⟩ := by
    unfold plotComponents plotParts formatWindField
    simp only [if_true]
    rw [if_neg (by omega)]
  refine ⟨_, ho, ?_⟩
  intro i
  have hl := createGrid_length s f.n1 f.n2 f.n3
  refine shows_of ⟨hl.1, hl.2.1, hl.2.2, flatten_length _⟩ fun a ha b hb c hc => ?_
  obtain ⟨h1, h2, h3⟩ := createGrid_at s ha hb hc
  exact ⟨h1, h2, h3, flatten_get ⟨f.n1, f.n2, f.n3, fun a b c => f.val a b c i⟩ ha hb hc⟩

/-- **C75.**  The magnitude plot shows the Euclidean norm of the vector at each grid point; it is at least the absolute value
of every component and zero only where the vector vanishes. -/
theorem C75_magnitude (s : ℝ × ℝ × ℝ) (n1 n2 n3 : ℕ) (u : ℕ → ℕ → ℕ → ℕ → ℝ) :
    ∃ t, plotMagnitude s (.ofReal n1 n2 n3 u) true = .ok t ∧ ∃ m : ℕ → ℕ → ℕ → ℝ,
      (t.Shows s n1 n2 n3 fun a b c => fin (m a b c)) ∧
      ∀ a b c, 0 ≤ m a b c ∧ m a b c ^ 2 = u a b c 0 ^ 2 + u a b c 1 ^ 2 + u a b c 2 ^ 2 ∧
        (∀ i < 3, |u a b c i| ≤ m a b c) ∧ (m a b c = 0 → ∀ i < 3, u a b c i = 0) := by
  have ho : plotMagnitude s (.ofReal n1 n2 n3 u) true = .ok ⟨(createGrid s n1 n2 n3).1.flatten,
      (createGrid s n1 n2 n3).2.1.flatten, (createGrid s n1 n2 n3).2.2.flatten,
      (Cube.mk n1 n2 n3 fun a b c => Fl.sqrt (fin (u a b c 0) * fin (u a b c 0) + fin (u a b c 1) * fin (u a b c 1) +
        fin (u a b c 2) * fin (u a b c 2))).flatten⟩ := by
    unfold plotMagnitude plotParts formatWindField
    simp only [if_true]
    rw [if_neg (by simp [Field4.ofReal])]
    rfl
  refine ⟨_, ho, fun a b c => Real.sqrt (u a b c 0 ^ 2 + u a b c 1 ^ 2 + u a b c 2 ^ 2), ?_, ?_⟩
  · have hl := createGrid_length s n1 n2 n3
    refine shows_of ⟨hl.1, hl.2.1, hl.2.2, flatten_length _⟩ fun a ha b hb c hc => ?_
    obtain ⟨h1, h2, h3⟩ := createGrid_at s ha hb hc
    refine ⟨h1, h2, h3, ?_⟩
    refine (flatten_get ⟨n1, n2, n3, _⟩ ha hb hc).trans ?_
    simp only [fin_mul_fin, fin_add_fin]
    rw [sqrt_fin (by nlinarith [mul_self_nonneg (u a b c 0), mul_self_nonneg (u a b c 1), mul_self_nonneg (u a b c 2)])]
    simp only [sq]
  · intro a b c
    have hn : 0 ≤ u a b c 0 ^ 2 + u a b c 1 ^ 2 + u a b c 2 ^ 2 := by positivity
    have hsq : Real.sqrt (u a b c 0 ^ 2 + u a b c 1 ^ 2 + u a b c 2 ^ 2) ^ 2 =
        u a b c 0 ^ 2 + u a b c 1 ^ 2 + u a b c 2 ^ 2 := Real.sq_sqrt hn
    have hle : ∀ i < 3, u a b c i ^ 2 ≤ u a b c 0 ^ 2 + u a b c 1 ^ 2 + u a b c 2 ^ 2 := by
      intro i hi
      interval_cases i <;> nlinarith [sq_nonneg (u a b c 0), sq_nonneg (u a b c 1), sq_nonneg (u a b c 2)]
    refine ⟨Real.sqrt_nonneg _, hsq, fun i hi => ?_, fun h0 i hi => ?_⟩
    · exact Real.abs_le_sqrt (hle i hi)
    · have h0' : Real.sqrt (u a b c 0 ^ 2 + u a b c 1 ^ 2 + u a b c 2 ^ 2) = 0 := h0
      rw [h0'] at hsq
      have := hle i hi
      rw [← hsq] at this
      have h2 : u a b c i ^ 2 = 0 := le_antisymm (by simpa using this) (sq_nonneg _)
      exact pow_eq_zero_iff (two_ne_zero) |>.1 h2

/-- **C75.**  Both figures of a field with fewer than three components raise `IndexError`, and no other field is refused. -/
theorem C75_refused (s : ℝ × ℝ × ℝ) (f : Field4) :
    (f.c < 3 → plotComponents s f true = .error .indexError ∧ plotMagnitude s f true = .error .indexError) ∧
    (3 ≤ f.c → (∃ t, plotComponents s f true = .ok t) ∧ ∃ t, plotMagnitude s f true = .ok t) := by
  unfold plotComponents plotMagnitude plotParts formatWindField
  constructor
  · intro h; simp [h]
  · intro h; simp [not_lt.mpr h]

/-- **C75.**  With `reshape=False` a field of shape `(n1, n2, n3, 3)` is cut along the wrong axis: it raises for `n1 < 3`,
and otherwise the number of plotted values `3 n2 n3` agrees with the number of coordinates only if `n1 = 3`, in which case
trace `i` shows the whole plane `i` instead of component `i`. -/
theorem C75_reshape_false (s : ℝ × ℝ × ℝ) (f : Field4) (hc : f.c = 3) (h2 : 0 < f.n2) (h3 : 0 < f.n3) :
    (f.n1 < 3 → plotComponents s f false = .error .indexError) ∧
    (3 ≤ f.n1 → ∃ t, plotComponents s f false = .ok t ∧
      ∀ i, ((t i).value.length = (t i).x.length ↔ f.n1 = 3) ∧ (t i).value[0]? = some (f.val i 0 0 0) ∧
        (t i).value[1]? = some (f.val i 0 0 1)) := by
  constructor
  · intro h
    unfold plotComponents plotParts
    simp [h]
  · intro h
    have ho : plotComponents s f false = .ok fun i => ⟨(createGrid s f.n1 f.n2 f.n3).1.flatten,
        (createGrid s f.n1 f.n2 f.n3).2.1.flatten, (createGrid s f.n1 f.n2 f.n3).2.2.flatten,
        (Cube.mk f.n2 f.n3 f.c fun b c j => f.val i b c j).flatten⟩ := by
      unfold plotComponents plotParts
      simp only [Bool.false_eq_true, if_false]
      rw [if_neg (by omega)]
    refine ⟨_, ho, ?_⟩
    intro i
    refine ⟨?_, ?_, ?_⟩
    · have hl := (createGrid_length s f.n1 f.n2 f.n3).1
      simp only
      rw [hl, flatten_length]
      simp only [hc]
      constructor
      · intro e
        have : (f.n2 * f.n3) * 3 = (f.n2 * f.n3) * f.n1 := by rw [e]; ring
        exact (Nat.eq_of_mul_eq_mul_left (Nat.mul_pos h2 h3) this).symm
      · intro e; rw [e]; ring
    · have := flatten_get ⟨f.n2, f.n3, f.c, fun b c j => f.val i b c j⟩ (a := 0) (b := 0) (c := 0) h2 h3 (by simp [hc])
      simpa using this
    · have := flatten_get ⟨f.n2, f.n3, f.c, fun b c j => f.val i b c j⟩ (a := 0) (b := 0) (c := 1) h2 h3 (by simp [hc])
      simpa using this

/-- A generated field: 65 x 33 x 17 points, three components. -/
example (u : ℕ → ℕ → ℕ → ℕ → ℝ) : 3 ≤ (Field4.ofReal 65 33 17 u).c ∧ (Field4.ofReal 65 33 17 u).n1 ≠ 3 := by
  simp [Field4.ofReal]

end
end Verif
