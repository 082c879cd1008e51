import Verif.Model.SamplingScalar
import Mathlib.Data.List.GetD

/-!
# C92: which sampling methods work with the library's covariance kernels
-/

namespace Verif

theorem loopErr_ok (f : ℕ → Except PyErr Unit) (c : ℕ) (h : ∀ i < c, f i = .ok ()) : loopErr f c = .ok () := by
  unfold loopErr
  induction c with
  | zero => rfl
  | succ c ih =>
    rw [List.range_succ, List.foldl_append, ih fun i hi => h i (by omega)]
    simp [h c (by omega)]

theorem loopErr_error (f : ℕ → Except PyErr Unit) (c j : ℕ) (hj : j < c) {e : PyErr} (h : f j = .error e) :
    ∃ e, loopErr f c = .error e := by
  unfold loopErr
  induction c with
  | zero => omega
  | succ c ih =>
    rw [List.range_succ, List.foldl_append]
    simp only [List.foldl_cons, List.foldl_nil]
    by_cases hc : j < c
    · obtain ⟨e', he⟩ := ih hc
      exact ⟨e', by rw [he]⟩
    · have : j = c := by omega
      subst this
      split
      · exact ⟨_, rfl⟩
      · exact ⟨e, h⟩

theorem bcast_spectrum_grid (n1 n2 n3 : ℕ) : bcast (spectrumShape n1 n2 n3) [n1, n2, n3] = some [3, 3, n1, n2, n3] := by
  simp [bcast, spectrumShape, bcastRev]

theorem canAssign_self (n1 n2 n3 : ℕ) : canAssign [n1, n2, n3] [n1, n2, n3] = true := by
  have : stripOnes 3 [n1, n2, n3] = [n1, n2, n3] := by
    unfold stripOnes
    split
    · rename_i l heq
      have hl : l.length = 2 := by
        have := congrArg List.length heq
        simp at this
        omega
      rw [if_neg (by omega), heq]
    · rfl
  simp [canAssign, this, bcast, bcastRev]

theorem bcastRev_some {s t r : List ℕ} : bcastRev s t = some r ↔
    r.length = max s.length t.length ∧ ∀ i, (s.getD i 1 = t.getD i 1 ∨ s.getD i 1 = 1 ∨ t.getD i 1 = 1) ∧
      r.getD i 1 = if s.getD i 1 = 1 then t.getD i 1 else s.getD i 1 := by
  induction s generalizing t r with
  | nil =>
    simp only [bcastRev, Option.some.injEq, List.length_nil, Nat.zero_max, List.getD_nil, if_true, true_or, or_true, true_and]
    constructor
    · rintro rfl; simp
    · rintro ⟨hl, h⟩
      refine (List.ext_getElem hl fun i h1 h2 => ?_).symm
      simpa [List.getD_eq_getElem, h1, h2] using h i
  | cons a s ih =>
    cases t with
    | nil =>
      simp only [bcastRev, Option.some.injEq, List.length_nil, Nat.max_zero, List.getD_nil, or_true, true_and]
      constructor
      · rintro rfl
        refine ⟨rfl, fun i => ?_⟩
        split_ifs with hi
        · exact hi
        · rfl
      · rintro ⟨hl, h⟩
        refine (List.ext_getElem hl fun i h1 h2 => ?_).symm
        have := h i
        rw [List.getD_eq_getElem _ _ h1, List.getD_eq_getElem _ _ h2] at this
        split_ifs at this with hi
        · rw [this, hi]
        · exact this
    | cons b t =>
      have hsplit : ∀ P : ℕ → Prop, (∀ i, P i) ↔ P 0 ∧ ∀ i, P (i + 1) := fun P =>
        ⟨fun h => ⟨h 0, fun i => h _⟩, fun h i => by cases i; exacts [h.1, h.2 _]⟩
      rw [hsplit]
      simp only [List.getD_cons_zero, List.getD_cons_succ, bcastRev]
      cases r with
      | nil =>
        constructor
        · intro h
          exfalso
          revert h
          cases bcastRev s t with
          | none => simp
          | some q => simp only; split_ifs <;> simp
        · rintro ⟨h, -⟩
          simp at h
      | cons c r =>
        simp only [List.getD_cons_zero, List.getD_cons_succ, List.length_cons, Nat.add_max_add_right, Nat.add_right_cancel_iff]
        cases hq : bcastRev s t with
        | none =>
          constructor
          · simp
          · rintro ⟨hl, -, h⟩
            rw [(ih (t := t) (r := r)).2 ⟨hl, h⟩] at hq
            cases hq
        | some q =>
          have hqr : q = r ↔ (r.length = max s.length t.length ∧
              ∀ i, (s.getD i 1 = t.getD i 1 ∨ s.getD i 1 = 1 ∨ t.getD i 1 = 1) ∧
                r.getD i 1 = if s.getD i 1 = 1 then t.getD i 1 else s.getD i 1) := by
            rw [← ih (t := t) (r := r), hq, Option.some.injEq]
          simp only
          constructor
          · intro h
            have hr : q = r := by
              split_ifs at h <;> simp only [Option.some.injEq, List.cons.injEq] at h <;> exact h.2
            refine ⟨(hqr.1 hr).1, ?_, (hqr.1 hr).2⟩
            split_ifs at h with h1 h2 h3 <;> simp only [Option.some.injEq, List.cons.injEq] at h
            · refine ⟨Or.inl h1, ?_⟩
              split_ifs with h4
              · rw [← h.1, h1]
              · exact h.1.symm
            · exact ⟨Or.inr (Or.inl h2), by rw [if_pos h2]; exact h.1.symm⟩
            · exact ⟨Or.inr (Or.inr h3), by rw [if_neg h2]; exact h.1.symm⟩
          · rintro ⟨hl, ⟨hc, hv⟩, h⟩
            have hr : q = r := hqr.2 ⟨hl, h⟩
            subst hr
            split_ifs with h1 h2 h3
            · split_ifs at hv with h4
              · rw [hv, h1]
              · rw [hv]
            · rw [if_pos h2] at hv; rw [hv]
            · rw [if_neg h2] at hv; rw [hv]
            · rcases hc with hc | hc | hc
              · exact absurd hc h1
              · exact absurd hc h2
              · exact absurd hc h3

/-- **C92** When `fft`, `dst` and `dct` accept a noise array: exactly when, axes counted from the last one and missing axes
counted as 1, each size of the noise equals that of the spectrum or one of them is 1; the product then has the larger
number of axes and along each the size that is not 1. -/
theorem C92_broadcast {s t r : List ℕ} :
    (bcast s t = some r ↔ r.length = max s.length t.length ∧ ∀ i,
      let a := s.reverse.getD i 1
      let b := t.reverse.getD i 1
      (a = b ∨ a = 1 ∨ b = 1) ∧ r.reverse.getD i 1 = if a = 1 then b else a) ∧
    (bcast s t = bcast t s) := by
  have key : ∀ {s t r : List ℕ}, bcast s t = some r ↔ r.length = max s.length t.length ∧ ∀ i,
      (s.reverse.getD i 1 = t.reverse.getD i 1 ∨ s.reverse.getD i 1 = 1 ∨ t.reverse.getD i 1 = 1) ∧
      r.reverse.getD i 1 = if s.reverse.getD i 1 = 1 then t.reverse.getD i 1 else s.reverse.getD i 1 := by
    intro s t r
    have h := bcastRev_some (s := s.reverse) (t := t.reverse) (r := r.reverse)
    simp only [List.length_reverse] at h
    rw [← h, bcast, Option.map_eq_some_iff]
    constructor
    · rintro ⟨q, hq, rfl⟩
      simpa using hq
    · intro hq
      exact ⟨_, hq, List.reverse_reverse r⟩
  refine ⟨key, ?_⟩
  ext r
  rw [key, key, max_comm]
  refine and_congr_right fun _ => forall_congr' fun i => ?_
  constructor <;>
  · rintro ⟨h1, h2⟩
    refine ⟨by tauto, ?_⟩
    rw [h2]
    split_ifs <;> first | omega | rfl

/-- **C92** The intended use: a vector field sampled with `vf_fftw` from noise of shape `grid + (3,)` has that shape. -/
theorem C92_vector_field (vector : Bool) (n1 n2 n3 : ℕ) :
    sampleShape .vfFftw vector n1 n2 n3 (some [n1, n2, n3, 3]) = .ok [n1, n2, n3, 3] := by
  unfold sampleShape vfShape
  simp only [List.getLast?_cons_cons, List.getLast?_singleton, List.dropLast_cons_cons, List.dropLast_singleton,
    canAssign_self, if_true]
  rw [loopErr_ok _ _ fun i hi => if_pos hi, loopErr_ok _ _ fun i hi => rfl]
  cases vector <;> simp [domainSlice, sliceShape]

/-- **C92** Without a noise argument `sample` of a vector field (method `vf_fftw`) raises: the noise drawn by default has no
component axis. -/
theorem C92_vector_default (vector : Bool) (n1 n2 : ℕ) {n3 : ℕ} (h : 4 ≤ n3) :
    ∃ e, sampleShape .vfFftw vector n1 n2 n3 none = .error e := by
  unfold sampleShape vfShape
  simp only [List.getLast?_cons_cons, List.getLast?_singleton, List.dropLast_cons_cons, List.dropLast_singleton]
  obtain ⟨e, he⟩ : ∃ e, loopErr (fun i => if canAssign [n1, n2, n3] [n1, n2] = true then
      (if i < 3 then Except.ok () else .error .indexError) else .error .valueError) n3 = .error e := by
    by_cases hc : canAssign [n1, n2, n3] [n1, n2] = true
    · exact loopErr_error _ _ 3 (by omega) (e := .indexError) (by simp [hc])
    · exact loopErr_error _ _ 3 (by omega) (e := .valueError) (by simp [hc])
  exact ⟨e, by rw [he]⟩

/-- **C92** The methods for scalar fields with the library's kernels: `fft`, `dst` and `dct` return a five-dimensional array
(the transforms run over the two tensor axes as well), `fftw` raises ValueError. -/
theorem C92_scalar_field (n1 n2 n3 : ℕ) :
    (∀ m ∈ [MethodName.fft, .dst, .dct],
      sampleShape m false n1 n2 n3 none = .ok [min n1 3, min n2 3, min n3 n1, n2, n3]) ∧
    sampleShape .fftw false n1 n2 n3 none = .error .valueError := by
  constructor
  · intro m hm
    have : sampleShape m false n1 n2 n3 none = trigShape false n1 n2 n3 [n1, n2, n3] := by
      simp only [List.mem_cons, List.not_mem_nil, or_false] at hm
      rcases hm with rfl | rfl | rfl <;> rfl
    rw [this, trigShape, bcast_spectrum_grid]
    simp [domainSlice, sliceShape]
  · simp only [sampleShape, fftwShape, canAssign_self, if_true]
    rw [if_neg]
    simp [bcast, bcastRev]

/-- **C92** On a grid with at least four points per axis the only way to obtain a field on the grid (scalar or vector)
from one of the library's kernels is `vf_fftw` with explicitly given vector noise. -/
theorem C92_only_vf {m : MethodName} {vector : Bool} {n1 n2 n3 : ℕ} (h1 : 4 ≤ n1) (h3 : 4 ≤ n3)
    {noise : Option (List ℕ)} (hn : noise = none ∨ noise = some [n1, n2, n3] ∨ noise = some [n1, n2, n3, 3]) :
    (sampleShape m vector n1 n2 n3 noise = .ok [n1, n2, n3] ∨ sampleShape m vector n1 n2 n3 noise = .ok [n1, n2, n3, 3]) ↔
      m = .vfFftw ∧ noise = some [n1, n2, n3, 3] := by
  have hd : sampleShape m vector n1 n2 n3 (some [n1, n2, n3]) = sampleShape m vector n1 n2 n3 none := by
    cases m <;> rfl
  have key : ∀ m, (sampleShape m vector n1 n2 n3 none ≠ .ok [n1, n2, n3]) ∧
      (sampleShape m vector n1 n2 n3 none ≠ .ok [n1, n2, n3, 3]) := by
    intro m
    have ht : ∀ s : List ℕ, s.length ≤ 4 → trigShape vector n1 n2 n3 [n1, n2, n3] ≠ .ok s := by
      intro s hs
      rw [trigShape, bcast_spectrum_grid]
      cases vector <;> · simp only [domainSlice, sliceShape, List.cons_append, List.nil_append, if_true, if_false,
          Bool.false_eq_true]
                         intro hc
                         injection hc with hc
                         rw [← hc] at hs
                         simp at hs
    have hv := C92_vector_default vector n1 n2 h3
    cases m with
    | fft => exact ⟨ht _ (by simp), ht _ (by simp)⟩
    | dst => exact ⟨ht _ (by simp), ht _ (by simp)⟩
    | dct => exact ⟨ht _ (by simp), ht _ (by simp)⟩
    | fftw =>
      have : sampleShape .fftw vector n1 n2 n3 none = .error .valueError := by
        simp only [sampleShape, fftwShape, canAssign_self, if_true]
        rw [if_neg]
        simp [bcast, bcastRev]
      rw [this]
      exact ⟨by simp, by simp⟩
    | vfFftw =>
      obtain ⟨e, he⟩ := hv
      rw [he]
      exact ⟨by simp, by simp⟩
    | other s => exact ⟨by simp [sampleShape], by simp [sampleShape]⟩
  rcases hn with rfl | rfl | rfl
  · simp [key m]
  · rw [hd]; simp [key m]
  · cases m with
    | vfFftw => simp [C92_vector_field]
    | other s => simp [sampleShape]
    | fftw =>
      have hs : stripOnes 3 [n1, n2, n3, 3] = [n1, n2, n3, 3] := by
        unfold stripOnes
        split
        · rename_i heq
          simp at heq
          omega
        · rfl
      have : canAssign [n1, n2, n3] [n1, n2, n3, 3] = false := by
        have hb : ∀ r, bcast [n1, n2, n3] [n1, n2, n3, 3] = some r → r.length ≠ 3 := by
          intro r hr
          simp only [bcast, bcastRev, List.reverse_cons, List.reverse_nil, List.nil_append, List.cons_append] at hr
          rw [Option.map_eq_some_iff] at hr
          obtain ⟨q, hq, rfl⟩ := hr
          rw [List.length_reverse]
          split_ifs at hq <;> aesop
        have hs' : stripOnes ([n1, n2, n3] : List ℕ).length [n1, n2, n3, 3] = [n1, n2, n3, 3] := hs
        rw [canAssign, hs']
        rw [beq_eq_false_iff_ne]
        intro hc
        exact hb _ hc rfl
      simp [sampleShape, fftwShape, this]
    | _ =>
      have : bcast (spectrumShape n1 n2 n3) [n1, n2, n3, 3] = none := by
        have e1 : n3 ≠ 3 := by omega
        have e2 : n3 ≠ 1 := by omega
        simp only [bcast, spectrumShape, bcastRev, List.reverse_cons, List.reverse_nil, List.nil_append, List.cons_append,
          if_neg e1, if_neg e2, Option.map_eq_none_iff]
        split <;> simp
      simp [sampleShape, trigShape, this]

/-- On a grid of 8 x 4 x 4 points the default method of `GaussianRandomField` returns a 3 x 3 x 4 x 4 x 4 array. -/
example : sampleShape .fft false 8 4 4 none = .ok [3, 3, 4, 4, 4] := (C92_scalar_field 8 4 4).1 _ (by simp)

end Verif
