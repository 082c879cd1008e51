import Verif.Model.FieldDivergence
import Verif.Props.GeneratorLaw
import Verif.Lemmas.WaveField

/-!
# The divergence of the accumulated field: C130
-/

namespace Verif
open Fl

noncomputable section
open Classical

/-! ### The accumulated field as an array -/

theorem field4_val {g : Gen} {a b c : ℕ} {w : Fin 3 → Fl} (h : g.total.val? a b c = some w) (i : Fin 3) :
    g.field4.val a b c i = w i := by
  unfold Arr.val? at h
  cases h1 : g.total.planes[a]? with
  | none => rw [h1] at h; cases h
  | some p =>
    rw [h1, Option.bind_some] at h
    cases h2 : p[b]? with
    | none => rw [h2] at h; cases h
    | some r =>
      rw [h2, Option.bind_some] at h
      unfold Gen.field4
      simp only
      rw [dif_pos i.isLt, List.getD_eq_getElem?_getD, List.getD_eq_getElem?_getD, List.getD_eq_getElem?_getD, h1, Option.getD_some,
        h2, Option.getD_some, h, Option.getD_some]

/-- No entry is infinite or not a number. -/
def Spec.AllFinite (f : Arr Fl) : Prop := ∀ p ∈ f.planes, ∀ r ∈ p, ∀ v ∈ r, ∀ i, (v i).IsFin

theorem field4_fin {g : Gen} (h : Spec.AllFinite g.total) (a b c i : ℕ) : (g.field4.val a b c i).IsFin := by
  unfold Gen.field4
  simp only
  by_cases hi : i < 3
  swap
  · rw [dif_neg hi]; trivial
  rw [dif_pos hi]
  rw [List.getD_eq_getElem?_getD, List.getD_eq_getElem?_getD, List.getD_eq_getElem?_getD]
  cases h1 : g.total.planes[a]? with
  | none => simp
  | some p =>
    rw [Option.getD_some]
    cases h2 : p[b]? with
    | none => simp
    | some r =>
      rw [Option.getD_some]
      cases h3 : r[c]? with
      | none => simp
      | some v =>
        rw [Option.getD_some]
        exact h p (List.mem_of_getElem? h1) r (List.mem_of_getElem? h2) v (List.mem_of_getElem? h3) _

/-- The entries as real numbers. -/
def Gen.fieldR (g : Gen) (a b c i : ℕ) : ℝ := (g.field4.val a b c i).toReal

theorem field4_real {g : Gen} (h : Spec.AllFinite g.total) :
    g.field4 = Field4.ofReal g.total.planes.length g.total.n2 g.total.n3 g.fieldR := by
  unfold Field4.ofReal
  have e : g.field4.val = fun a b c i => fin (g.fieldR a b c i) := by
    funext a b c i
    unfold Gen.fieldR
    have := field4_fin h a b c i
    cases hv : g.field4.val a b c i with
    | fin x => rfl
    | nan => rw [hv] at this; exact this.elim
    | pinf => rw [hv] at this; exact this.elim
    | ninf => rw [hv] at this; exact this.elim
  rw [← e]
  rfl

theorem sizes_two (g : Gen) : 2 ≤ g.Nx ∧ 2 ≤ g.Ny ∧ 2 ≤ g.Nz := by
  unfold Gen.Nx Gen.Ny Gen.Nz
  have := Nat.one_le_two_pow (n := g.l1)
  have := Nat.one_le_two_pow (n := g.l2)
  have := Nat.one_le_two_pow (n := g.l3)
  omega

/-! ### C130 -/

/-- **C130** (outcome).  Without a field the divergence of the accumulated field is evaluated as soon as there is a block; before
that, and for a spacing without three entries, `ValueError` is raised. -/
theorem C130_outcome {env : GenEnv} {a : GenArgs} {g : Gen} {q : ℕ} (ha : a.PosScales) (h : genInit env a = (.ok g, q))
    (cs : List (ℕ × ProfileArgs)) (spacing : List ℝ) :
    ((∃ d, (g.run cs).2.evaluateDivergence spacing none = .ok d) ↔ spacing.length = 3 ∧ (g.run cs).2.total.planes ≠ []) ∧
    ((¬ ∃ d, (g.run cs).2.evaluateDivergence spacing none = .ok d) →
      (g.run cs).2.evaluateDivergence spacing none = .error .valueError) := by
  have hg := genInit_good ha h
  obtain ⟨K, L, T, hs, hf, hl, -⟩ := genInit_ok h
  obtain ⟨j, k, tot, e, sh, -⟩ := run_st hg hl cs 0 0 ⟨g.Ny, g.Nz, []⟩ ⟨rfl, rfl, by simp, fun p hp => by cases hp⟩
  rw [hf.st] at e
  obtain ⟨o1, o2⟩ := C60_outcome spacing (g.run cs).2.field4
  refine ⟨o1.trans ?_, o2⟩
  rw [e]
  have t2 := sizes_two g
  have hn2 : (g.st j tot).field4.n2 = g.Ny := sh.1
  have hn3 : (g.st j tot).field4.n3 = g.Nz := sh.2.1
  have hn1 : (g.st j tot).field4.n1 = k * g.Nx := sh.2.2.1
  have hc : (g.st j tot).field4.c = 3 := rfl
  have ht : (g.st j tot).total = tot := rfl
  rw [hn1, hn2, hn3, hc, ht, ← List.length_pos_iff, sh.2.2.1]
  constructor
  · rintro ⟨h1, -, h2, -⟩
    exact ⟨h1, by omega⟩
  · rintro ⟨h1, h2⟩
    refine ⟨h1, rfl, ?_, t2.2.1, t2.2.2⟩
    have : 1 ≤ k := by
      rcases Nat.eq_zero_or_pos k with rfl | hk
      · omega
      · exact hk
    nlinarith [t2.1]

/-- The values returned by a successful call, the object's field and the old planes. -/
theorem returned_values {env : GenEnv} {a : GenArgs} {g : Gen} {q : ℕ} (ha : a.PosScales) (h : genInit env a = (.ok g, q))
    (cs : List (ℕ × ProfileArgs)) :
    ∃ j k tot, (g.run cs).2 = g.st j tot ∧ tot.Shape (k * g.Nx) g.Ny g.Nz ∧
      ∀ (p : ProfileArgs) (n : ℕ) (f : Arr Fl), ((g.st j tot).generate p n).1 = .ok f →
        ((g.st j tot).generate p n).2.total = f ∧ f.n2 = g.Ny ∧ f.n3 = g.Nz ∧ f.planes.length = (k + n) * g.Nx ∧
        (∀ x < k * g.Nx, ∀ b c, f.val? x b c = tot.val? x b c) ∧
        ∀ i < n, ∀ r < g.Nx, ∀ b < g.Ny, ∀ c < g.Nz,
          f.val? (k * g.Nx + (i * g.Nx + r)) b c = some (g.outAt p (0 + i) (j + i) r b c) := by
  have hg := genInit_good ha h
  obtain ⟨K, L, T, hs, hf, hl, -⟩ := genInit_ok h
  obtain ⟨j, k, tot, e, sh, -⟩ := run_st hg hl cs 0 0 ⟨g.Ny, g.Nz, []⟩ ⟨rfl, rfl, by simp, fun p hp => by cases hp⟩
  rw [hf.st] at e
  refine ⟨j, k, tot, e, sh, fun p n f hfe => ?_⟩
  rcases generate_st hg hl p n j ⟨sh.1, sh.2.1⟩ with ⟨-, h2⟩ | ⟨m, -, -, -, h2⟩
  swap
  · rw [h2] at hfe; cases hfe
  rw [h2] at hfe ⊢
  obtain rfl := Except.ok.inj hfe
  refine ⟨rfl, rfl, rfl, ?_, ?_, ?_⟩
  · have := (outs_shape g p 0 j n).1
    simp only [Gen.ext, List.length_append, this, sh.2.2.1]
    ring
  · intro x hx b c
    unfold Arr.val? Gen.ext
    simp only
    rw [List.getElem?_append_left (by rw [sh.2.2.1]; exact hx)]
  · intro i hi r hr b hb c hc
    rw [← sh.2.2.1]
    exact ext_val? g tot p 0 j n i r b c hi hr hb hc

/-- Difference of the gradients of a step. -/
theorem gradR_step {n P : ℕ} {h : ℝ} (D : ℝ) (hP : P ≠ 1) (hn : P + 2 ≤ n) {x : ℕ} (hx : x < n) :
    gradR n h (fun t => if P ≤ t then D else 0) x = if x + 1 = P ∨ (x = P ∧ 0 < P) then D / (2 * h) else 0 := by
  unfold gradR
  beta_reduce
  by_cases h0 : x = 0
  · subst h0
    rw [if_pos rfl]
    rw [if_neg (c := 0 + 1 = P ∨ (0 = P ∧ 0 < P)) (by omega)]
    by_cases hP0 : P = 0
    · subst hP0; simp
    · rw [if_neg (c := P ≤ 1) (by omega), if_neg (c := P ≤ 0) (by omega)]; simp
  rw [if_neg h0]
  by_cases h1 : x + 1 = n
  · rw [if_pos h1, if_pos (c := P ≤ n - 1) (by omega), if_pos (c := P ≤ n - 2) (by omega), if_neg (by omega)]; simp
  rw [if_neg h1]
  by_cases h2 : x + 1 = P ∨ (x = P ∧ 0 < P)
  · rw [if_pos h2, if_pos (c := P ≤ x + 1) (by omega), if_neg (c := P ≤ x - 1) (by omega), sub_zero]
  · rw [if_neg h2]
    by_cases h3 : P ≤ x + 1
    · rw [if_pos h3, if_pos (c := P ≤ x - 1) (by omega)]; simp
    · rw [if_neg h3, if_neg (c := P ≤ x - 1) (by omega)]; simp

theorem profileAt_mean {env : GenEnv} {a : GenArgs} {g : Gen} {q : ℕ} (h : genInit env a = (.ok g, q)) (p : ProfileArgs) (c : ℕ) :
    g.profileAt p c = Spec.meanWind p (c * (a.d3 / 2 ^ a.l3)) := by
  obtain ⟨K, L, T, -, -, -, ⟨-, -, d3⟩, ⟨-, -, l3⟩, -⟩ := genInit_ok h
  have hz : ((g.Nz - 1 : ℕ) : ℝ) = 2 ^ g.l3 := by unfold Gen.Nz; simp
  unfold Gen.profileAt Spec.meanWind
  rw [hz, d3, l3]

theorem outAt_change {g : Gen} {p p' : ProfileArgs} {i j r b c : ℕ} (h : (g.outAt p i j r b c 0).IsFin)
    (h' : (g.outAt p' i j r b c 0).IsFin) :
    (g.outAt p' i j r b c 0).toReal = (g.outAt p i j r b c 0).toReal + ((g.profileAt p' c).toReal - (g.profileAt p c).toReal) := by
  unfold Gen.outAt at *
  simp only at *
  obtain ⟨l, hl⟩ : ∃ l, (if g.low = none then fin 0 else fin (g.lowAt i r b).1) = fin l := by split_ifs <;> exact ⟨_, rfl⟩
  rw [hl] at h h' ⊢
  cases h1 : g.profileAt p c with
  | fin u =>
    cases h2 : g.profileAt p' c with
    | fin u' => simp only [fin_add_fin, toReal_fin]; ring
    | nan => rw [h2] at h'; exact h'.elim
    | pinf => rw [h2] at h'; exact h'.elim
    | ninf => rw [h2] at h'; exact h'.elim
  | nan => rw [h1] at h; exact h.elim
  | pinf => rw [h1] at h; exact h.elim
  | ninf => rw [h1] at h; exact h.elim

theorem val_in {x : Arr Fl} {n1 n2 n3 a b c : ℕ} (h : x.Shape n1 n2 n3) (ha : a < n1) (hb : b < n2) (hc : c < n3) :
    ∃ w, x.val? a b c = some w := by
  obtain ⟨-, -, h1, h2⟩ := h
  unfold Arr.val?
  have ha' : a < x.planes.length := by omega
  rw [List.getElem?_eq_getElem ha', Option.bind_some]
  obtain ⟨h3, h4⟩ := h2 _ (List.getElem_mem ha')
  have hb' : b < (x.planes[a]).length := by omega
  rw [List.getElem?_eq_getElem hb', Option.bind_some]
  have hc' : c < (x.planes[a][b]).length := by rw [h4 _ (List.getElem_mem hb')]; exact hc
  exact ⟨_, List.getElem?_eq_getElem hc'⟩

/-- **C130** (given field).  For an array passed explicitly the object does not matter: any generator gives for a copy of the
accumulated field of another one the divergence that one reports itself. -/
theorem C130_given {env : GenEnv} {a : GenArgs} {g : Gen} {q : ℕ} (ha : a.PosScales) (h : genInit env a = (.ok g, q))
    (cs : List (ℕ × ProfileArgs)) (spacing : List ℝ) {F : Field4} (h1 : F.n1 = (g.run cs).2.total.planes.length)
    (h2 : F.n2 = 2 ^ a.l2 + 1) (h3 : F.n3 = 2 ^ a.l3 + 1) (hc : F.c = 3)
    (hv : ∀ x b c w, (g.run cs).2.total.val? x b c = some w → ∀ i : Fin 3, F.val x b c i = w i) (o : Gen)
    {d : ℕ → ℕ → ℕ → Fl} (hd : (g.run cs).2.evaluateDivergence spacing none = .ok d) :
    ∃ d', o.evaluateDivergence spacing (some F) = .ok d' ∧
      ∀ x < F.n1, ∀ b < F.n2, ∀ c < F.n3, d' x b c = d x b c := by
  have hg := genInit_good ha h
  obtain ⟨K, L, T, hs, hf, hl, -⟩ := genInit_ok h
  obtain ⟨j, k, tot, e, sh, -⟩ := run_st hg hl cs 0 0 ⟨g.Ny, g.Nz, []⟩ ⟨rfl, rfl, by simp, fun p hp => by cases hp⟩
  rw [hf.st] at e
  rw [e] at h1 hv hd
  have ht : (g.st j tot).total = tot := rfl
  rw [ht] at h1 hv
  have eN : g.Ny = 2 ^ a.l2 + 1 ∧ g.Nz = 2 ^ a.l3 + 1 := by
    obtain ⟨-, -, -, -, -, -, -, ⟨-, l2, l3⟩, -⟩ := genInit_ok h
    exact ⟨by unfold Gen.Ny; rw [l2], by unfold Gen.Nz; rw [l3]⟩
  have hn1 : (g.st j tot).field4.n1 = F.n1 := h1.symm
  have hn2 : (g.st j tot).field4.n2 = F.n2 := by rw [h2, ← eN.1]; exact sh.1
  have hn3 : (g.st j tot).field4.n3 = F.n3 := by rw [h3, ← eN.2]; exact sh.2.1
  have hval : ∀ x < F.n1, ∀ b < F.n2, ∀ c < F.n3, ∀ i : Fin 3, F.val x b c i = (g.st j tot).field4.val x b c i := by
    intro x hx b hb c hcc i
    obtain ⟨w, hw⟩ := val_in sh (a := x) (b := b) (c := c) (by rw [← sh.2.2.1, ← h1]; exact hx) (by rw [eN.1, ← h2]; exact hb)
      (by rw [eN.2, ← h3]; exact hcc)
    rw [hv x b c w hw i, field4_val (g := g.st j tot) hw i]
  have key : ∀ (n : ℕ) (s : ℝ) (u v : ℕ → Fl), 2 ≤ n → (∀ t < n, u t = v t) → ∀ i < n, npGradient n s u i = npGradient n s v i := by
    intro n s u v hn huv i hi
    unfold npGradient
    by_cases h0 : i = 0
    · rw [if_pos h0, if_pos h0, huv 1 (by omega), huv 0 (by omega)]
    rw [if_neg h0, if_neg h0]
    by_cases h1 : i + 1 = n
    · rw [if_pos h1, if_pos h1, huv (n - 1) (by omega), huv (n - 2) (by omega)]
    rw [if_neg h1, if_neg h1, huv (i + 1) (by omega), huv (i - 1) (by omega)]
  unfold Gen.evaluateDivergence at hd ⊢
  rw [Option.getD_none] at hd
  rw [Option.getD_some]
  unfold evalDivergence at hd ⊢
  rw [hn1, hn2, hn3] at hd
  by_cases e1 : spacing.length ≠ 3
  · rw [if_pos e1] at hd; cases hd
  rw [if_neg e1] at hd ⊢
  rw [if_neg (c := (g.st j tot).field4.c ≠ 3) (fun z => z rfl)] at hd
  rw [if_neg (c := F.c ≠ 3) (fun z => z hc)]
  by_cases e2 : F.n1 < 2 ∨ F.n2 < 2 ∨ F.n3 < 2
  · rw [if_pos e2] at hd; cases hd
  rw [if_neg e2] at hd ⊢
  push Not at e2
  refine ⟨_, rfl, fun x hx b hb c hcc => ?_⟩
  rw [← Except.ok.inj hd]
  beta_reduce
  have k1 := key F.n1 (spacing.getD 0 0) (fun t => F.val t b c 0) _ e2.1 (fun t ht => hval t ht b hb c hcc 0) x hx
  have k2 := key F.n2 (spacing.getD 1 0) (fun t => F.val x t c 1) _ e2.2.1 (fun t ht => hval x hx t ht c hcc 1) b hb
  have k3 := key F.n3 (spacing.getD 2 0) (fun t => F.val x b t 2) _ e2.2.2 (fun t ht => hval x hx b hb t ht 2) c hcc
  rw [k1, k2, k3]
  rfl

theorem val_mem {f : Arr Fl} {a b c : ℕ} {w : Fin 3 → Fl} (hf : Spec.AllFinite f) (h : f.val? a b c = some w) (i : Fin 3) : (w i).IsFin := by
  unfold Arr.val? at h
  cases h1 : f.planes[a]? with
  | none => rw [h1] at h; cases h
  | some p =>
    rw [h1, Option.bind_some] at h
    cases h2 : p[b]? with
    | none => rw [h2] at h; cases h
    | some r =>
      rw [h2, Option.bind_some] at h
      exact hf p (List.mem_of_getElem? h1) r (List.mem_of_getElem? h2) w (List.mem_of_getElem? h) i

/-- **C130** (mean wind).  Calls that differ in the profile give the same divergence, except in the two planes on either side of
the place where the new planes begin: there the jump of the mean wind adds a spurious contribution. -/
theorem C130_profile {env : GenEnv} {a : GenArgs} {g : Gen} {q : ℕ} (ha : a.PosScales) (h : genInit env a = (.ok g, q))
    (cs : List (ℕ × ProfileArgs)) (p p' : ProfileArgs) {n : ℕ} (hn : 0 < n) {f f' : Arr Fl}
    (hf : ((g.run cs).2.generate p n).1 = .ok f) (hf' : ((g.run cs).2.generate p' n).1 = .ok f')
    (hfin : Spec.AllFinite f) (hfin' : Spec.AllFinite f') {h1 h2 h3 : ℝ} (hh : h1 ≠ 0 ∧ h2 ≠ 0 ∧ h3 ≠ 0) :
    ∃ d d', ((g.run cs).2.generate p n).2.evaluateDivergence [h1, h2, h3] none = .ok d ∧
      ((g.run cs).2.generate p' n).2.evaluateDivergence [h1, h2, h3] none = .ok d' ∧
      ∀ x < f.planes.length, ∀ b < g.Ny, ∀ c < g.Nz, ∃ r r', d x b c = fin r ∧ d' x b c = fin r' ∧
        r' = r + if x + 1 = (g.run cs).2.total.planes.length ∨
            (x = (g.run cs).2.total.planes.length ∧ 0 < (g.run cs).2.total.planes.length) then
          ((Spec.meanWind p' (c * (a.d3 / 2 ^ a.l3))).toReal - (Spec.meanWind p (c * (a.d3 / 2 ^ a.l3))).toReal) / (2 * h1) else 0 := by
  obtain ⟨j, k, tot, e, sh, hret⟩ := returned_values ha h cs
  rw [e] at hf hf' ⊢
  have htot : (g.st j tot).total = tot := rfl
  rw [htot, sh.2.2.1]
  obtain ⟨t1, t2, t3, t4, t5, t6⟩ := hret p n f hf
  obtain ⟨s1, s2, s3, s4, s5, s6⟩ := hret p' n f' hf'
  obtain ⟨G, hG⟩ : ∃ G, G = ((g.st j tot).generate p n).2 := ⟨_, rfl⟩
  obtain ⟨G', hG'⟩ : ∃ G', G' = ((g.st j tot).generate p' n).2 := ⟨_, rfl⟩
  rw [← hG] at t1 ⊢
  rw [← hG'] at s1 ⊢
  have z := sizes_two g
  have hsz : (k * g.Nx) + 2 ≤ (k + n) * g.Nx := by nlinarith [z.1]
  have hk1 : k * g.Nx ≠ 1 := by
    rcases Nat.eq_zero_or_pos k with hk | hk
    · rw [hk]; omega
    · nlinarith [z.1]
  have nn : 2 ≤ (k + n) * g.Nx ∧ 2 ≤ g.Ny ∧ 2 ≤ g.Nz := ⟨by omega, z.2⟩
  have q1 := field4_real (g := G) (by rw [t1]; exact hfin)
  have q2 := field4_real (g := G') (by rw [s1]; exact hfin')
  rw [t1, t2, t3, t4] at q1
  rw [s1, s2, s3, s4] at q2
  have v1 := evalDivergence_fin nn hh G.fieldR
  rw [← q1] at v1
  have v2 := evalDivergence_fin nn hh G'.fieldR
  rw [← q2] at v2
  refine ⟨_, _, v1, v2, fun x hx b hb c hc => ⟨_, _, rfl, rfl, ?_⟩⟩
  · rw [t4] at hx
    have hval : ∀ t < (k + n) * g.Nx, ∀ b < g.Ny, ∀ c < g.Nz, ∀ i : Fin 3, G'.fieldR t b c i = G.fieldR t b c i +
        if i = 0 ∧ k * g.Nx ≤ t then (Spec.meanWind p' (c * (a.d3 / 2 ^ a.l3))).toReal -
          (Spec.meanWind p (c * (a.d3 / 2 ^ a.l3))).toReal else 0 := by
      intro t ht b hb c hc i
      unfold Gen.fieldR
      by_cases hold : t < k * g.Nx
      · obtain ⟨w, hw⟩ := val_in sh hold hb hc
        rw [field4_val (g := G) (w := w) (by rw [t1, t5 t hold, hw]), field4_val (g := G') (w := w) (by rw [s1, s5 t hold, hw]),
          if_neg (by omega), add_zero]
      · obtain ⟨m, rfl⟩ : ∃ m, t = k * g.Nx + m := ⟨t - k * g.Nx, by omega⟩
        have hm : m < n * g.Nx := by
          rw [add_mul] at ht; omega
        have hpos : 0 < g.Nx := by omega
        have hdm : m = m / g.Nx * g.Nx + m % g.Nx := by rw [mul_comm]; exact (Nat.div_add_mod m g.Nx).symm
        have hi1 : m / g.Nx < n := (Nat.div_lt_iff_lt_mul hpos).2 hm
        have hr1 : m % g.Nx < g.Nx := Nat.mod_lt _ hpos
        have e1 := t6 _ hi1 _ hr1 b hb c hc
        have e2 := s6 _ hi1 _ hr1 b hb c hc
        rw [← hdm] at e1 e2
        rw [field4_val (g := G) (by rw [t1]; exact e1), field4_val (g := G') (by rw [s1]; exact e2)]
        fin_cases i
        · rw [if_pos ⟨rfl, by omega⟩]
          have := outAt_change (val_mem hfin e1 0) (val_mem hfin' e2 0)
          rw [profileAt_mean h, profileAt_mean h] at this
          exact this
        · rw [if_neg (by simp), add_zero]; rfl
        · rw [if_neg (by simp), add_zero]; rfl
    obtain ⟨D, hD⟩ : ∃ D, D = (Spec.meanWind p' (c * (a.d3 / 2 ^ a.l3))).toReal -
          (Spec.meanWind p (c * (a.d3 / 2 ^ a.l3))).toReal := ⟨_, rfl⟩
    have cong : ∀ {m : ℕ} {hs : ℝ} {u v : ℕ → ℝ} {y : ℕ}, 2 ≤ m → y < m → (∀ t < m, u t = v t) → gradR m hs u y = gradR m hs v y := by
      intro m hs u v y hm hy huv
      unfold gradR
      split_ifs with c1 c2
      · rw [huv _ (by omega), huv _ (by omega)]
      · rw [huv _ (by omega), huv _ (by omega)]
      · rw [huv _ (by omega), huv _ (by omega)]
    have g1 : gradR ((k + n) * g.Nx) h1 (fun t => G'.fieldR t b c 0) x = gradR ((k + n) * g.Nx) h1 (fun t => G.fieldR t b c 0) x +
        if x + 1 = k * g.Nx ∨ (x = k * g.Nx ∧ 0 < k * g.Nx) then D / (2 * h1) else 0 := by
      rw [← gradR_step D hk1 hsz hx]
      have l := gradR_linear ((k + n) * g.Nx) h1 (fun t => G.fieldR t b c 0) (fun t => if k * g.Nx ≤ t then D else 0) 1 1 x
      rw [one_mul, one_mul] at l
      rw [← l]
      refine cong nn.1 hx fun t ht => ?_
      have := hval t ht b hb c hc 0
      rw [one_mul, one_mul, hD]
      refine this.trans ?_
      congr 1
      simp
    have g2 : gradR g.Ny h2 (fun t => G'.fieldR x t c 1) b = gradR g.Ny h2 (fun t => G.fieldR x t c 1) b := by
      refine cong nn.2.1 hb fun t ht => ?_
      have := hval x hx t ht c hc 1
      rw [if_neg (by simp), add_zero] at this
      exact this
    have g3 : gradR g.Nz h3 (fun t => G'.fieldR x b t 2) c = gradR g.Nz h3 (fun t => G.fieldR x b t 2) c := by
      refine cong nn.2.2 hc fun t ht => ?_
      have := hval x hx b hb t ht 2
      rw [if_neg (by simp), add_zero] at this
      exact this
    rw [g1, g2, g3, ← hD]
    ring

/-! ### Inside a block -/

/-- The values of a block are those of the sampled periodic field. -/
theorem block_vf {g : Gen} (hg : g.Good) [NeZero g.shape1.toNat] [NeZero g.shape2.toNat] [NeZero g.shape3.toNat] (j : ℕ) {r b c : ℕ}
    (hr : r < g.Nx) (hb : b < g.Ny) (hc : c < g.Nz) (i : Fin 3) :
    (g.block j).entry r b c i = vfSample (spectrumOf g.kernel.eval (g.rf.L.getD 0 0) (g.rf.L.getD 1 0) (g.rf.L.getD 2 0))
      (transformNorm (g.rf.L.getD 0 0) (g.rf.L.getD 1 0) (g.rf.L.getD 2 0))
      (fun x l => g.gauss (g.place j (x, l)) * g.rf.noiseStd)
      (((g.nb.toNat + r : ℕ) : ZMod g.shape1.toNat), ((g.my.toNat + b : ℕ) : ZMod g.shape2.toNat), ((c : ℕ) : ZMod g.shape3.toNat)) i := by
  obtain ⟨e1, e2, e3, p1, p2, p3, q1, q2, q3⟩ := hg.shapes
  obtain ⟨g1, g2, g3⟩ := hg
  have hx := blendExt_nonneg g.bn
  unfold Gen.block
  rw [ofFn_entry _ hr hb hc]
  unfold Gen.sample
  simp only
  rw [dif_pos ⟨p1, p2, p3⟩]
  have a1 : g.nb.toNat + r < g.shape1.toNat := by omega
  have a2 : g.my.toNat + b < g.shape2.toNat := by omega
  have a3 : c < g.shape3.toNat := by omega
  rw [ofFn_entry _ a1 a2 a3]
  have hw : (fun (x : Box g.shape1.toNat g.shape2.toNat g.shape3.toNat) (l : Fin 3) =>
      (g.window j).entry x.1.val x.2.1.val x.2.2.val l) = fun x l => g.gauss (g.place j (x, l)) * g.rf.noiseStd := by
    funext x l
    have hwin : g.window j = Arr.ofFn g.shape1.toNat g.shape2.toNat g.shape3.toNat fun a b c i =>
        g.gauss ((((j * g.Nx + a) * g.shape2.toNat + b) * g.shape3.toNat + c) * 3 + i.val) * g.rf.noiseStd := rfl
    rw [hwin, ofFn_entry _ (ZMod.val_lt _) (ZMod.val_lt _) (ZMod.val_lt _)]
    rfl
  exact congrArg (fun n => vfSample _ _ n _ i) hw

theorem rf_periods {env : GenEnv} {a : GenArgs} {g : Gen} {q : ℕ} (h : genInit env a = (.ok g, q)) :
    g.rf.L.getD 0 0 = a.d1 / (2 ^ a.l1 + 1) * g.shape1.toNat ∧ g.rf.L.getD 1 0 = a.d2 / (2 ^ a.l2 + 1) * g.shape2.toNat ∧
    g.rf.L.getD 2 0 = a.d3 / (2 ^ a.l3 + 1) * g.shape3.toNat := by
  obtain ⟨-, -, -, -, -, -, -, -, -, -, -, -, -, hr, -⟩ := genInit_ok h
  have hr' := Except.ok.inj hr
  rw [← hr']
  exact ⟨rfl, rfl, rfl⟩

/-- Divergence by central differences at `(r + 1, b + 1, c + 1)`. -/
def Spec.central (s1 s2 s3 : ℝ) (u : ℕ → ℕ → ℕ → Fin 3 → ℝ) (r b c : ℕ) : ℝ :=
  (u (r + 2) (b + 1) (c + 1) 0 - u r (b + 1) (c + 1) 0) / (2 * s1) + (u (r + 1) (b + 2) (c + 1) 1 - u (r + 1) b (c + 1) 1) / (2 * s2) +
    (u (r + 1) (b + 1) (c + 2) 2 - u (r + 1) (b + 1) c 2) / (2 * s3)

theorem gradR_inner {n : ℕ} {h : ℝ} (u : ℕ → ℝ) {r : ℕ} (hr : r + 2 < n) : gradR n h u (r + 1) = (u (r + 2) - u r) / (2 * h) := by
  unfold gradR
  rw [if_neg (by omega), if_neg (by omega)]
  rfl

/-- The reported divergence inside a block. -/
theorem block_divergence {env : GenEnv} {a : GenArgs} {g : Gen} {q : ℕ} (ha : a.PosScales) (h : genInit env a = (.ok g, q))
    (hlow : a.low = none) (cs : List (ℕ × ProfileArgs)) :
    ∃ j, ∀ (p : ProfileArgs) {n : ℕ}, 0 < n → ∀ {f : Arr Fl}, ((g.run cs).2.generate p n).1 = .ok f → Spec.AllFinite f →
      ∀ {h1 h2 h3 : ℝ}, h1 ≠ 0 ∧ h2 ≠ 0 ∧ h3 ≠ 0 →
      ∃ d, ((g.run cs).2.generate p n).2.evaluateDivergence [h1, h2, h3] none = .ok d ∧
        ∀ i < n,
          (∀ r < g.Nx, ∀ b < g.Ny, ∀ c < g.Nz, ∃ w,
            f.val? ((g.run cs).2.total.planes.length + (i * g.Nx + r)) b c = some w ∧ ∀ m,
              w m = fin ((g.block (j + i)).entry r b c m / (g.block (j + i)).sd) +
                if m = 0 then Spec.meanWind p (c * (a.d3 / 2 ^ a.l3)) else fin 0) ∧
          ∀ r, r + 2 < g.Nx → ∀ b, b + 2 < g.Ny → ∀ c, c + 2 < g.Nz →
            d ((g.run cs).2.total.planes.length + (i * g.Nx + (r + 1))) (b + 1) (c + 1) =
              fin (Spec.central h1 h2 h3 (fun r b c m => (g.block (j + i)).entry r b c m / (g.block (j + i)).sd) r b c) := by
  obtain ⟨j, k, tot, e, sh, hret⟩ := returned_values ha h cs
  have hl0 : g.low = none := by
    obtain ⟨-, -, -, -, -, -, -, -, -, -, -, -, -, -, hn, -⟩ := genInit_ok h
    exact hn hlow
  rw [e]
  have htot : (g.st j tot).total = tot := rfl
  rw [htot, sh.2.2.1]
  refine ⟨j, fun p n hn f hf hfin h1 h2 h3 hh => ?_⟩
  obtain ⟨t1, t2, t3, t4, -, t6⟩ := hret p n f hf
  obtain ⟨G, hG⟩ : ∃ G, G = ((g.st j tot).generate p n).2 := ⟨_, rfl⟩
  rw [← hG] at t1 ⊢
  have z := sizes_two g
  have nn : 2 ≤ (k + n) * g.Nx ∧ 2 ≤ g.Ny ∧ 2 ≤ g.Nz := ⟨by nlinarith [z.1], z.2⟩
  have q1 := field4_real (g := G) (by rw [t1]; exact hfin)
  rw [t1, t2, t3, t4] at q1
  have v1 := evalDivergence_fin nn hh G.fieldR
  rw [← q1] at v1
  have hout : ∀ i r b c m, g.outAt p (0 + i) (j + i) r b c m = fin ((g.block (j + i)).entry r b c m / (g.block (j + i)).sd) +
      if m = 0 then Spec.meanWind p (c * (a.d3 / 2 ^ a.l3)) else fin 0 := by
    intro i r b c m
    rw [← profileAt_mean h]
    unfold Gen.outAt
    rw [hl0]
    fin_cases m <;> simp [add_fin_zero]
  refine ⟨_, v1, fun i hi => ⟨fun r hr b hb c hc => ⟨_, t6 i hi r hr b hb c hc, hout i r b c⟩, ?_⟩⟩
  have hreal : ∀ r < g.Nx, ∀ b < g.Ny, ∀ c < g.Nz, ∃ U, (∀ r', U = (g.outAt p (0 + i) (j + i) r' b c 0).toReal -
      (g.block (j + i)).entry r' b c 0 / (g.block (j + i)).sd ∨ ¬ r' < g.Nx) ∧ ∀ m : Fin 3,
      G.fieldR (k * g.Nx + (i * g.Nx + r)) b c m = (g.block (j + i)).entry r b c m / (g.block (j + i)).sd + if m = 0 then U else 0 := by
    intro r hr b hb c hc
    have hv : ∀ r' < g.Nx, ∀ m : Fin 3, G.fieldR (k * g.Nx + (i * g.Nx + r')) b c m = (g.outAt p (0 + i) (j + i) r' b c m).toReal := by
      intro r' hr' m
      unfold Gen.fieldR
      rw [field4_val (g := G) (by rw [t1]; exact t6 i hi r' hr' b hb c hc)]
    have hfi := val_mem hfin (t6 i hi r hr b hb c hc) 0
    rw [hout, if_pos rfl] at hfi
    obtain ⟨U, hU⟩ : ∃ U, Spec.meanWind p (c * (a.d3 / 2 ^ a.l3)) = fin U := by
      cases hm : Spec.meanWind p (c * (a.d3 / 2 ^ a.l3)) with
      | fin U => exact ⟨U, rfl⟩
      | nan => rw [hm] at hfi; exact hfi.elim
      | pinf => rw [hm] at hfi; exact hfi.elim
      | ninf => rw [hm] at hfi; exact hfi.elim
    refine ⟨U, fun r' => Or.inl ?_, fun m => ?_⟩
    · rw [hout, if_pos rfl, hU, fin_add_fin, toReal_fin]; ring
    · rw [hv r hr, hout, hU]
      split_ifs
      · rw [fin_add_fin, toReal_fin]
      · rw [fin_add_fin, toReal_fin]
  intro r hr b hb c hc
  have hpl : k * g.Nx + (i * g.Nx + (r + 1)) + 1 < (k + n) * g.Nx := by
    have : (i + 1) * g.Nx ≤ n * g.Nx := Nat.mul_le_mul_right _ hi
    rw [add_mul] at this ⊢
    omega
  have x1 : k * g.Nx + (i * g.Nx + (r + 1)) = (k * g.Nx + (i * g.Nx + r)) + 1 := by ring
  congr 1
  unfold Spec.central
  congr 1
  · congr 1
    · rw [x1, gradR_inner _ (by omega)]
      obtain ⟨U, hU, e1⟩ := hreal (r + 2) (by omega) (b + 1) (by omega) (c + 1) (by omega)
      obtain ⟨U', hU', e2⟩ := hreal r (by omega) (b + 1) (by omega) (c + 1) (by omega)
      have : U = U' := by
        rcases hU r with h1 | h1
        · rcases hU' r with h2 | h2
          · rw [h1, h2]
          · omega
        · omega
      have e1' := e1 0
      have e2' := e2 0
      rw [if_pos rfl] at e1' e2'
      have x2 : k * g.Nx + (i * g.Nx + r) + 2 = k * g.Nx + (i * g.Nx + (r + 2)) := by ring
      rw [x2]
      have e1'' : G.fieldR (k * g.Nx + (i * g.Nx + (r + 2))) (b + 1) (c + 1) 0 = _ := e1'
      have e2'' : G.fieldR (k * g.Nx + (i * g.Nx + r)) (b + 1) (c + 1) 0 = _ := e2'
      rw [e1'', e2'', this]
      ring
    · rw [gradR_inner _ (by omega)]
      obtain ⟨U, -, e1⟩ := hreal (r + 1) (by omega) (b + 2) (by omega) (c + 1) (by omega)
      obtain ⟨U', -, e2⟩ := hreal (r + 1) (by omega) b (by omega) (c + 1) (by omega)
      have e1' := e1 1
      have e2' := e2 1
      rw [if_neg (by decide), add_zero] at e1' e2'
      have e1'' : G.fieldR (k * g.Nx + (i * g.Nx + (r + 1))) (b + 2) (c + 1) 1 = _ := e1'
      have e2'' : G.fieldR (k * g.Nx + (i * g.Nx + (r + 1))) b (c + 1) 1 = _ := e2'
      rw [e1'', e2'']
  · rw [gradR_inner _ (by omega)]
    obtain ⟨U, -, e1⟩ := hreal (r + 1) (by omega) (b + 1) (by omega) (c + 2) (by omega)
    obtain ⟨U', -, e2⟩ := hreal (r + 1) (by omega) (b + 1) (by omega) c (by omega)
    have e1' := e1 2
    have e2' := e2 2
    rw [if_neg (by decide), add_zero] at e1' e2'
    have e1'' : G.fieldR (k * g.Nx + (i * g.Nx + (r + 1))) (b + 1) (c + 2) 2 = _ := e1'
    have e2'' : G.fieldR (k * g.Nx + (i * g.Nx + (r + 1))) (b + 1) c 2 = _ := e2'
    rw [e1'', e2'']

/-- Distance of the grid points in the three directions. -/
def Spec.gridSpacing (a : GenArgs) : Fin 3 → ℝ := ![a.d1 / (2 ^ a.l1 + 1), a.d2 / (2 ^ a.l2 + 1), a.d3 / (2 ^ a.l3 + 1)]

/-- **C130** (inside a block).  If the levels are positive and the number of blended planes is odd or not positive, the
fluctuation in every block is sampled, at the grid spacing, from a smooth vector field without divergence; what
`evaluate_divergence` reports inside the block is the error of the central differences alone, of second order in the spacing. -/
theorem C130_interior {env : GenEnv} {a : GenArgs} {g : Gen} {q : ℕ} (ha : a.PosScales) (h : genInit env a = (.ok g, q))
    (hK : g.kernel.Valid) (hlow : a.low = none) (hlev : 0 < a.l1 ∧ 0 < a.l2 ∧ 0 < a.l3) (hodd : a.bn ≤ 0 ∨ Odd a.bn)
    (cs : List (ℕ × ProfileArgs)) (p : ProfileArgs) {n : ℕ} (hn : 0 < n) {f : Arr Fl}
    (hf : ((g.run cs).2.generate p n).1 = .ok f) (hfin : Spec.AllFinite f) :
    ∃ d, ((g.run cs).2.generate p n).2.evaluateDivergence
        [Spec.gridSpacing a 0, Spec.gridSpacing a 1, Spec.gridSpacing a 2] none = .ok d ∧
      ∀ i < n, ∃ (ι : Type) (_ : Fintype ι) (κ : ι → Fin 3 → ℝ) (A : ι → Fin 3 → ℂ),
        Spec.DivergenceFree (Spec.waves κ A) ∧ Function.Injective κ ∧ (∀ t m, |κ t m| < Real.pi / Spec.gridSpacing a m) ∧
        ∀ r < 2 ^ a.l1 + 1, ∀ b < 2 ^ a.l2 + 1, ∀ c < 2 ^ a.l3 + 1,
          (∃ w, f.val? ((g.run cs).2.total.planes.length + (i * (2 ^ a.l1 + 1) + r)) b c = some w ∧ ∀ m,
            w m = fin (Spec.waves κ A ![Spec.gridSpacing a 0 * r, Spec.gridSpacing a 1 * b, Spec.gridSpacing a 2 * c] m) +
              if m = 0 then Spec.meanWind p (c * (a.d3 / 2 ^ a.l3)) else fin 0) ∧
          (0 < r → r < 2 ^ a.l1 → 0 < b → b < 2 ^ a.l2 → 0 < c → c < 2 ^ a.l3 →
            ∃ s, d ((g.run cs).2.total.planes.length + (i * (2 ^ a.l1 + 1) + r)) b c = fin s ∧
              |s| ≤ ∑ t, ∑ m, Spec.gridSpacing a m ^ 2 * |κ t m| ^ 3 * ‖A t m‖ / 6) := by
  have hg := genInit_good ha h
  obtain ⟨e1, e2, e3, p1, p2, p3, q1, q2, q3⟩ := hg.shapes
  have : NeZero g.shape1.toNat := ⟨p1.ne'⟩
  have : NeZero g.shape2.toNat := ⟨p2.ne'⟩
  have : NeZero g.shape3.toNat := ⟨p3.ne'⟩
  obtain ⟨-, -, -, -, -, -, -, ⟨l1, l2, l3⟩, -, ⟨hbn, -⟩, -⟩ := genInit_ok h
  have hNx : g.Nx = 2 ^ a.l1 + 1 := by unfold Gen.Nx; rw [l1]
  have hNy : g.Ny = 2 ^ a.l2 + 1 := by unfold Gen.Ny; rw [l2]
  have hNz : g.Nz = 2 ^ a.l3 + 1 := by unfold Gen.Nz; rw [l3]
  have ev : ∀ {l : ℕ}, 0 < l → Even (2 ^ l) := fun {l} hl => (Nat.even_pow.2 ⟨even_two, hl.ne'⟩)
  have hx := blendExt_nonneg g.bn
  have hg' := hg
  obtain ⟨g1, g2, g3⟩ := hg'
  have o2 : Odd g.shape2.toNat := by
    obtain ⟨w, hw⟩ := ev hlev.2.1
    rw [hw] at hNy; exact ⟨w + g.my.toNat, by omega⟩
  have o3 : Odd g.shape3.toNat := by
    obtain ⟨w, hw⟩ := ev hlev.2.2
    rw [hw] at hNz; exact ⟨w + g.mz.toNat, by omega⟩
  have o1 : Odd g.shape1.toNat := by
    obtain ⟨w, hw⟩ := ev hlev.1
    have hb : Even (blendExt g.bn).toNat := by
      rw [hbn]
      unfold blendExt
      split_ifs with hc
      · rcases hodd with h0 | ⟨v, hv⟩
        · omega
        · exact ⟨v.toNat, by omega⟩
      · exact ⟨0, rfl⟩
    obtain ⟨v, hv⟩ := hb
    rw [hw] at hNx; exact ⟨w + g.nb.toNat + v, by omega⟩
  have hh : ∀ m, 0 < Spec.gridSpacing a m := by
    obtain ⟨⟨d1, d2, d3⟩, -⟩ := ha
    intro m
    fin_cases m
    · change 0 < a.d1 / (2 ^ a.l1 + 1); positivity
    · change 0 < a.d2 / (2 ^ a.l2 + 1); positivity
    · change 0 < a.d3 / (2 ^ a.l3 + 1); positivity
  obtain ⟨j, hj⟩ := block_divergence ha h hlow cs
  obtain ⟨d, hd, hval⟩ := hj p hn hf hfin (h1 := Spec.gridSpacing a 0) (h2 := Spec.gridSpacing a 1) (h3 := Spec.gridSpacing a 2)
    ⟨(hh 0).ne', (hh 1).ne', (hh 2).ne'⟩
  refine ⟨d, hd, fun i hi => ?_⟩
  obtain ⟨hv, hdv⟩ := hval i hi
  obtain ⟨L1, L2, L3⟩ := rf_periods h
  obtain ⟨κ, A, hinj, hκ, hA, hw⟩ := vfSample_waves hK o1 o2 o3 hh
    (transformNorm (g.rf.L.getD 0 0) (g.rf.L.getD 1 0) (g.rf.L.getD 2 0))
    (fun x l => g.gauss (g.place (j + i) (x, l)) * g.rf.noiseStd) (g.block (j + i)).sd g.nb.toNat g.my.toNat 0
  have hent : ∀ r < g.Nx, ∀ b < g.Ny, ∀ c < g.Nz, ∀ m, (g.block (j + i)).entry r b c m / (g.block (j + i)).sd =
      Spec.waves κ A ![Spec.gridSpacing a 0 * r, Spec.gridSpacing a 1 * b, Spec.gridSpacing a 2 * c] m := by
    intro r hr b hb c hc m
    rw [block_vf hg (j + i) hr hb hc]
    have := hw r b c (by omega) (by omega) (by omega) m
    rw [zero_add] at this
    rw [← this]
    congr 2
    rw [L1, L2, L3]
    rfl
  refine ⟨_, inferInstance, κ, A, waves_solenoidal hA, hinj, hκ, fun r hr b hb c hc => ⟨?_, ?_⟩⟩
  · rw [← hNx] at hr ⊢
    rw [← hNy] at hb
    rw [← hNz] at hc
    obtain ⟨w, h1, h2⟩ := hv r hr b hb c hc
    refine ⟨w, h1, fun m => ?_⟩
    rw [h2 m, hent r hr b hb c hc]
  · intro r0 r1 b0 b1 c0 c1
    obtain ⟨r, rfl⟩ : ∃ r', r = r' + 1 := ⟨r - 1, by omega⟩
    obtain ⟨b, rfl⟩ : ∃ b', b = b' + 1 := ⟨b - 1, by omega⟩
    obtain ⟨c, rfl⟩ : ∃ c', c = c' + 1 := ⟨c - 1, by omega⟩
    have hr2 : r + 2 < g.Nx := by omega
    have hb2 : b + 2 < g.Ny := by omega
    have hc2 : c + 2 < g.Nz := by omega
    rw [← hNx]
    refine ⟨_, hdv r hr2 b hb2 c hc2, ?_⟩
    have bound := waves_central_bound hA hh
      ![Spec.gridSpacing a 0 * ((r + 1 : ℕ) : ℝ), Spec.gridSpacing a 1 * ((b + 1 : ℕ) : ℝ), Spec.gridSpacing a 2 * ((c + 1 : ℕ) : ℝ)]
    refine le_trans (le_of_eq ?_) bound
    congr 1
    unfold Spec.central
    simp only
    rw [Fin.sum_univ_three, hent (r + 2) (by omega) (b + 1) (by omega) (c + 1) (by omega), hent r (by omega) (b + 1) (by omega) (c + 1) (by omega),
      hent (r + 1) (by omega) (b + 2) (by omega) (c + 1) (by omega), hent (r + 1) (by omega) b (by omega) (c + 1) (by omega),
      hent (r + 1) (by omega) (b + 1) (by omega) (c + 2) (by omega), hent (r + 1) (by omega) (b + 1) (by omega) c (by omega)]
    have up : ∀ (x y : Fin 3 → ℝ) (m : Fin 3), x = y → Spec.waves κ A x m = Spec.waves κ A y m := fun x y m e => by rw [e]
    congr 1
    · congr 1
      · congr 1
        congr 1
        · refine up _ _ _ ?_
          funext m; fin_cases m <;> simp <;> ring
        · refine up _ _ _ ?_
          funext m; fin_cases m <;> simp <;> ring
      · congr 1
        congr 1
        · refine up _ _ _ ?_
          funext m; fin_cases m <;> simp <;> ring
        · refine up _ _ _ ?_
          funext m; fin_cases m <;> simp <;> ring
    · congr 1
      congr 1
      · refine up _ _ _ ?_
        funext m; fin_cases m <;> simp <;> ring
      · refine up _ _ _ ?_
        funext m; fin_cases m <;> simp <;> ring

open MeasureTheory ProbabilityTheory in
/-- **C130** (never zero).  For independent noise values without atoms - such as the normal values numpy draws - and positive
levels, with probability one the reported divergence is different from zero at every inner point of every block, whatever the
spacing passed: although the field itself has no divergence, the method cannot confirm it. -/
theorem C130_nonzero {Ω : Type} [MeasurableSpace Ω] {μ : Measure Ω} [IsProbabilityMeasure μ] {ξ : ℕ → Ω → ℝ}
    (hm : ∀ n, Measurable (ξ n)) (hi : iIndepFun ξ μ) (hat : ∀ n x, μ {ω | ξ n ω = x} = 0) {env : GenEnv} {a : GenArgs}
    (ha : a.PosScales) (he : a.PosEnergy) (hlow : a.low = none) (hlev : 0 < a.l1 ∧ 0 < a.l2 ∧ 0 < a.l3) {g : Gen} {q : ℕ}
    (h : genInit env a = (.ok g, q)) (hK : g.kernel.Valid) {h1 h2 h3 : ℝ} (hh : h1 ≠ 0 ∧ h2 ≠ 0 ∧ h3 ≠ 0) :
    ∀ᵐ ω ∂μ, ∃ g', genInit (env.withStream fun n => ξ n ω) a = (.ok g', q) ∧
      ∀ cs : List (ℕ × ProfileArgs), (∀ c ∈ cs, c.2.Valid) → ∀ (p : ProfileArgs) (n : ℕ), p.Valid → 0 < n →
        ∃ f, ((g'.run cs).2.generate p n).1 = .ok f ∧ (Spec.AllFinite f →
          ∃ d, ((g'.run cs).2.generate p n).2.evaluateDivergence [h1, h2, h3] none = .ok d ∧
            ∀ i < n, ∀ r b c, 0 < r → r < 2 ^ a.l1 → 0 < b → b < 2 ^ a.l2 → 0 < c → c < 2 ^ a.l3 →
              ∃ s ≠ 0, d ((g'.run cs).2.total.planes.length + (i * (2 ^ a.l1 + 1) + r)) b c = fin s) := by
  have hg := genInit_good ha h
  obtain ⟨e1, e2, e3, p1, p2, p3, q1, q2, q3⟩ := hg.shapes
  have : NeZero g.shape1.toNat := ⟨p1.ne'⟩
  have : NeZero g.shape2.toNat := ⟨p2.ne'⟩
  have : NeZero g.shape3.toNat := ⟨p3.ne'⟩
  obtain ⟨K, L, T, hs, hfr, hl, -, ⟨l1, l2, l3⟩, -, ⟨-, -, hmy, hmz⟩, hk, -⟩ := genInit_ok h
  have hE : g.kernel.Energetic := by rw [hk]; exact genScales_energetic he hs
  have hNx : g.Nx = 2 ^ a.l1 + 1 := by unfold Gen.Nx; rw [l1]
  have hNy : g.Ny = 2 ^ a.l2 + 1 := by unfold Gen.Ny; rw [l2]
  have hNz : g.Nz = 2 ^ a.l3 + 1 := by unfold Gen.Nz; rw [l3]
  have hreg := genInit_regular ha.1 h
  obtain ⟨r1, r2, r3, r4⟩ := hreg
  have two : ∀ {l : ℕ}, 0 < l → 2 ≤ 2 ^ l := fun {l} hl => by
    calc 2 = 2 ^ 1 := rfl
      _ ≤ 2 ^ l := Nat.pow_le_pow_right (by norm_num) hl
  have t2 := two hlev.2.1
  have t3 := two hlev.2.2
  have hx := blendExt_nonneg g.bn
  have hmz1 : 1 ≤ g.mz := by
    rw [hmz]
    have hL := (genScales_pos ha hs).1
    have hd := ha.1.2.2
    exact Int.one_le_ceil_iff.2 (by positivity)
  have hg' := hg
  obtain ⟨g1, g2, g3⟩ := hg'
  obtain ⟨S, hS⟩ : ∃ S : Box g.shape1.toNat g.shape2.toNat g.shape3.toNat → Matrix (Fin 3) (Fin 3) ℂ,
    S = spectrumOf g.kernel.eval (g.rf.L.getD 0 0) (g.rf.L.getD 1 0) (g.rf.L.getD 2 0) := ⟨_, rfl⟩
  obtain ⟨nrm, hnrm⟩ : ∃ nrm, nrm = transformNorm (g.rf.L.getD 0 0) (g.rf.L.getD 1 0) (g.rf.L.getD 2 0) := ⟨_, rfl⟩
  have hn0 : nrm ≠ 0 := by rw [hnrm]; unfold transformNorm; exact (Real.sqrt_pos.2 (by positivity)).ne'
  -- the reported value as a combination of noise values
  have coeff : ∀ x : Box g.shape1.toNat g.shape2.toNat g.shape3.toNat,
      ∃ c : Box g.shape1.toNat g.shape2.toNat g.shape3.toNat × Fin 3 → ℝ, (∃ w, c w ≠ 0) ∧
        ∀ noise, boxDiv h1 h2 h3 (vfSample S nrm noise) x = ∑ w, c w * noise w.1 w.2 := by
    intro x
    obtain ⟨c1, k1⟩ := vfSample_coeff S nrm (x + (1, 0, 0)) 0
    obtain ⟨c2, k2⟩ := vfSample_coeff S nrm (x + (-1, 0, 0)) 0
    obtain ⟨c3, k3⟩ := vfSample_coeff S nrm (x + (0, 1, 0)) 1
    obtain ⟨c4, k4⟩ := vfSample_coeff S nrm (x + (0, -1, 0)) 1
    obtain ⟨c5, k5⟩ := vfSample_coeff S nrm (x + (0, 0, 1)) 2
    obtain ⟨c6, k6⟩ := vfSample_coeff S nrm (x + (0, 0, -1)) 2
    have key : ∀ noise, boxDiv h1 h2 h3 (vfSample S nrm noise) x =
        ∑ w, ((c1 w - c2 w) / (2 * h1) + (c3 w - c4 w) / (2 * h2) + (c5 w - c6 w) / (2 * h3)) * noise w.1 w.2 := by
      intro noise
      unfold boxDiv
      rw [k1, k2, k3, k4, k5, k6, ← Finset.sum_sub_distrib, ← Finset.sum_sub_distrib, ← Finset.sum_sub_distrib, Finset.sum_div,
        Finset.sum_div, Finset.sum_div, ← Finset.sum_add_distrib, ← Finset.sum_add_distrib]
      exact Finset.sum_congr rfl fun w _ => by ring
    refine ⟨_, ?_, key⟩
    by_contra hall
    push Not at hall
    obtain ⟨noise, hne⟩ := boxDiv_ne (n1 := g.shape1.toNat) (n2 := g.shape2.toNat) (n3 := g.shape3.toNat) hK hE (by omega) (by omega)
      (L1 := g.rf.L.getD 0 0) r2.ne' r3.ne' hn0 (s1 := h1) hh.2.1 hh.2.2 x
    rw [← hS, key] at hne
    exact hne (Finset.sum_eq_zero fun w _ => by rw [hall w, zero_mul])
  have hall : ∀ᵐ ω ∂μ, ∀ (j : ℕ) (x : Box g.shape1.toNat g.shape2.toNat g.shape3.toNat),
      boxDiv h1 h2 h3 (vfSample S nrm fun y l => ξ (g.place j (y, l)) ω * g.rf.noiseStd) x ≠ 0 := by
    rw [ae_all_iff]
    intro j
    rw [ae_all_iff]
    intro x
    obtain ⟨c, ⟨w0, hw0⟩, hc⟩ := coeff x
    filter_upwards [combination_ne_zero (fun w => hm (g.place j w)) (hi.precomp (Gen.place_inj hg j))
      (fun w x => hat (g.place j w) x) (c := fun w => c w * g.rf.noiseStd) (mul_ne_zero hw0 r4)] with ω hω
    rw [hc]
    intro h0
    apply hω
    rw [← h0]
    exact Finset.sum_congr rfl fun w _ => by ring
  filter_upwards [blocks_any hm hi hat hg (genInit_regular ha.1 h) hK hE, hall] with ω hω hdiv
  refine ⟨_, genInit_stream h _, fun cs hv p n hp hn => ?_⟩
  obtain ⟨g', hg'⟩ : ∃ g', g' = g.withStream fun n => ξ n ω := ⟨_, rfl⟩
  rw [← hg']
  have hinit : genInit (env.withStream fun n => ξ n ω) a = (.ok g', q) := by rw [hg']; exact genInit_stream h _
  have hgood : g'.Good := genInit_good ha hinit
  have hready : g'.LowReady := by rw [hg']; exact hl
  obtain ⟨j, k, tot, e, sh, -⟩ := run_st hgood hready cs 0 0 ⟨g'.Ny, g'.Nz, []⟩ ⟨rfl, rfl, by simp, fun p hp => by cases hp⟩
  have hfresh : g'.Fresh := by rw [hg']; exact hfr
  rw [hfresh.st] at e
  have hany : ∀ j, (g'.block j).any := by rw [hg']; exact hω
  have hf : ∃ f, ((g'.run cs).2.generate p n).1 = .ok f := by
    rw [e]
    rcases generate_st hgood hready p n j ⟨sh.1, sh.2.1⟩ with ⟨-, h2⟩ | ⟨m, -, -, h3, -⟩
    · rw [h2]; exact ⟨_, rfl⟩
    · exact absurd ⟨hany _, hp⟩ h3
  obtain ⟨f, hf⟩ := hf
  refine ⟨f, hf, fun hfin => ?_⟩
  obtain ⟨j', hj'⟩ := block_divergence ha hinit hlow cs
  obtain ⟨d, hd, hval⟩ := hj' p hn hf hfin hh
  refine ⟨d, hd, fun i hin r b c r0 r1' b0 b1 c0 c1 => ?_⟩
  obtain ⟨-, hdv⟩ := hval i hin
  obtain ⟨r, rfl⟩ : ∃ r', r = r' + 1 := ⟨r - 1, by omega⟩
  obtain ⟨b, rfl⟩ : ∃ b', b = b' + 1 := ⟨b - 1, by omega⟩
  obtain ⟨c, rfl⟩ : ∃ c', c = c' + 1 := ⟨c - 1, by omega⟩
  have n1 : g'.Nx = g.Nx := by rw [hg']; rfl
  have n2 : g'.Ny = g.Ny := by rw [hg']; rfl
  have n3 : g'.Nz = g.Nz := by rw [hg']; rfl
  have hd' := hdv r (by omega) b (by omega) c (by omega)
  rw [n1, hNx] at hd'
  refine ⟨_, ?_, hd'⟩
  have hsd : 0 < (g'.block (j' + i)).sd := by
    have := block_ofFn g' (j' + i)
    have ha' := hany (j' + i)
    rw [this] at ha' ⊢
    exact (sd_mean_square _ ha').1
  have hcen : Spec.central h1 h2 h3 (fun r b c m => (g'.block (j' + i)).entry r b c m / (g'.block (j' + i)).sd) r b c =
      Spec.central h1 h2 h3 (fun r b c m => (g'.block (j' + i)).entry r b c m) r b c / (g'.block (j' + i)).sd := by
    unfold Spec.central
    ring
  rw [hcen]
  refine div_ne_zero ?_ hsd.ne'
  have hbx := hdiv (j' + i) (((g.nb.toNat + (r + 1) : ℕ) : ZMod g.shape1.toNat), ((g.my.toNat + (b + 1) : ℕ) : ZMod g.shape2.toNat),
    ((c + 1 : ℕ) : ZMod g.shape3.toNat))
  have hent : ∀ r < g.Nx, ∀ b < g.Ny, ∀ c < g.Nz, ∀ m, (g'.block (j' + i)).entry r b c m =
      vfSample S nrm (fun y l => ξ (g.place (j' + i) (y, l)) ω * g.rf.noiseStd)
        (((g.nb.toNat + r : ℕ) : ZMod g.shape1.toNat), ((g.my.toNat + b : ℕ) : ZMod g.shape2.toNat), ((c : ℕ) : ZMod g.shape3.toNat)) m := by
    intro r hr b hb c hc m
    subst hg'
    rw [hS, hnrm]
    have : NeZero (g.withStream fun n => ξ n ω).shape1.toNat := ⟨p1.ne'⟩
    have : NeZero (g.withStream fun n => ξ n ω).shape2.toNat := ⟨p2.ne'⟩
    have : NeZero (g.withStream fun n => ξ n ω).shape3.toNat := ⟨p3.ne'⟩
    exact block_vf (g := g.withStream fun n => ξ n ω) hgood (j' + i) (r := r) (b := b) (c := c) hr hb hc m
  unfold boxDiv at hbx
  unfold Spec.central
  simp only
  rw [hent (r + 2) (by omega) (b + 1) (by omega) (c + 1) (by omega), hent r (by omega) (b + 1) (by omega) (c + 1) (by omega),
      hent (r + 1) (by omega) (b + 2) (by omega) (c + 1) (by omega), hent (r + 1) (by omega) b (by omega) (c + 1) (by omega),
      hent (r + 1) (by omega) (b + 1) (by omega) (c + 2) (by omega), hent (r + 1) (by omega) (b + 1) (by omega) c (by omega)]
  simp only [Prod.mk_add_mk, add_zero] at hbx
  have a1 : (((g.nb.toNat + (r + 1) : ℕ) : ZMod g.shape1.toNat)) + 1 = ((g.nb.toNat + (r + 2) : ℕ) : ZMod g.shape1.toNat) := by push_cast; ring
  have a2 : (((g.nb.toNat + (r + 1) : ℕ) : ZMod g.shape1.toNat)) + -1 = ((g.nb.toNat + r : ℕ) : ZMod g.shape1.toNat) := by push_cast; ring
  have a3 : (((g.my.toNat + (b + 1) : ℕ) : ZMod g.shape2.toNat)) + 1 = ((g.my.toNat + (b + 2) : ℕ) : ZMod g.shape2.toNat) := by push_cast; ring
  have a4 : (((g.my.toNat + (b + 1) : ℕ) : ZMod g.shape2.toNat)) + -1 = ((g.my.toNat + b : ℕ) : ZMod g.shape2.toNat) := by push_cast; ring
  have a5 : (((c + 1 : ℕ) : ZMod g.shape3.toNat)) + 1 = ((c + 2 : ℕ) : ZMod g.shape3.toNat) := by push_cast; ring
  have a6 : (((c + 1 : ℕ) : ZMod g.shape3.toNat)) + -1 = ((c : ℕ) : ZMod g.shape3.toNat) := by push_cast; ring
  rw [a1, a2, a3, a4, a5, a6] at hbx
  exact hbx

/-! ### When the field is finite -/

theorem mem_tab_iff {α : Type} {n : ℕ} {f : ℕ → α} {y : α} : y ∈ tab n f ↔ ∃ x, x < n ∧ f x = y := by
  unfold tab
  simp

theorem outs_finite {g : Gen} {p : ProfileArgs} (hp : ∀ c < g.Nz, (g.profileAt p c).IsFin) (i j n : ℕ) :
    ∀ pl ∈ g.outs p i j n, ∀ r ∈ pl, ∀ v ∈ r, ∀ k, (v k).IsFin := by
  intro pl hpl r hr v hv k
  unfold Gen.outs at hpl
  rw [List.mem_flatMap] at hpl
  obtain ⟨t, -, hpl⟩ := hpl
  unfold Arr.ofFn at hpl
  simp only at hpl
  obtain ⟨x, -, rfl⟩ := mem_tab_iff.1 hpl
  obtain ⟨b, -, rfl⟩ := mem_tab_iff.1 hr
  obtain ⟨c, hc, rfl⟩ := mem_tab_iff.1 hv
  have := hp c hc
  obtain ⟨l, hl⟩ : ∃ l, (if g.low = none then fin 0 else fin (g.lowAt (i + t) x b).1) = fin l := by split_ifs <;> exact ⟨_, rfl⟩
  obtain ⟨l', hl'⟩ : ∃ l, (if g.low = none then fin 0 else fin (g.lowAt (i + t) x b).2) = fin l := by split_ifs <;> exact ⟨_, rfl⟩
  unfold Gen.outAt
  rw [hl, hl']
  fin_cases k
  · cases hu : g.profileAt p c with
    | fin u => trivial
    | nan => rw [hu] at this; exact this.elim
    | pinf => rw [hu] at this; exact this.elim
    | ninf => rw [hu] at this; exact this.elim
  · trivial
  · trivial

/-- **C130** (finite values).  If the mean wind of every call of a history is finite at the grid levels, so is the whole accumulated
field. -/
theorem C130_finite {env : GenEnv} {a : GenArgs} {g : Gen} {q : ℕ} (ha : a.PosScales) (h : genInit env a = (.ok g, q))
    (cs : List (ℕ × ProfileArgs))
    (hp : ∀ c ∈ cs, ∀ l < 2 ^ a.l3 + 1, (Spec.meanWind c.2 ((l : ℕ) * (a.d3 / 2 ^ a.l3))).IsFin) :
    Spec.AllFinite (g.run cs).2.total := by
  have hg := genInit_good ha h
  obtain ⟨K, L, T, hs, hf, hl, -, ⟨-, -, l3⟩, -⟩ := genInit_ok h
  have hNz : g.Nz = 2 ^ a.l3 + 1 := by unfold Gen.Nz; rw [l3]
  have main : ∀ cs : List (ℕ × ProfileArgs),
      (∀ c ∈ cs, ∀ l < 2 ^ a.l3 + 1, (Spec.meanWind c.2 ((l : ℕ) * (a.d3 / 2 ^ a.l3))).IsFin) →
      ∀ (j : ℕ) (tot : Arr Fl), (tot.n2 = g.Ny ∧ tot.n3 = g.Nz) → Spec.AllFinite tot →
        Spec.AllFinite (Gen.run cs (g.st j tot)).2.total := by
    intro cs
    induction cs with
    | nil => intro _ j tot _ ht; exact ht
    | cons c cs ih =>
      obtain ⟨n, p⟩ := c
      intro hp j tot hn ht
      have hprof : ∀ c < g.Nz, (g.profileAt p c).IsFin := by
        intro c hc
        rw [profileAt_mean h]
        exact hp (n, p) List.mem_cons_self c (by omega)
      have hext : ∀ m, Spec.AllFinite (g.ext tot (g.outs p 0 j m)) := by
        intro m pl hpl
        rcases List.mem_append.1 hpl with hpl | hpl
        · exact ht pl hpl
        · exact outs_finite hprof 0 j m pl hpl
      rcases generate_st hg hl p n j hn with ⟨-, h2⟩ | ⟨m, -, -, -, h2⟩
      · unfold Gen.run
        rw [h2]
        exact ih (fun c hc => hp c (List.mem_cons_of_mem _ hc)) _ _ ⟨rfl, rfl⟩ (hext n)
      · unfold Gen.run
        rw [h2]
        exact ih (fun c hc => hp c (List.mem_cons_of_mem _ hc)) (j + m + 1) _ ⟨rfl, rfl⟩ (hext m)
  have := main cs hp 0 ⟨g.Ny, g.Nz, []⟩ ⟨rfl, rfl⟩ (fun p hp => by cases hp)
  rwa [hf.st] at this

/-- Arguments, a stream and calls meeting the hypotheses: an odd number of blended planes and a logarithmic profile. -/
example (env : GenEnv) : ∃ (a : GenArgs) (env' : GenEnv) (g : Gen) (q : ℕ) (p : ProfileArgs) (f : Arr Fl), a.PosScales ∧ a.PosEnergy ∧
    a.low = none ∧ (0 < a.l1 ∧ 0 < a.l2 ∧ 0 < a.l3) ∧ Odd a.bn ∧ genInit env' a = (.ok g, q) ∧ g.kernel.Valid ∧ p.Valid ∧
    ((g.run []).2.generate p 2).1 = .ok f ∧ Spec.AllFinite f := by
  obtain ⟨a, ha⟩ : ∃ a, a = { exampleArgs with bn := 9 } := ⟨_, rfl⟩
  obtain ⟨h1, h2, -⟩ := exampleArgs_physical env
  have hz : (0 : ℝ) < 180 := by norm_num
  obtain ⟨g, hg⟩ := genInit_exists env (a := { exampleArgs with bn := 9 }) (Or.inl rfl) (L := 50) (T := 3) (e := 0.5)
    rfl rfl rfl (by norm_num [exampleArgs])
    ⟨by norm_num [exampleArgs], by norm_num [exampleArgs], by norm_num [exampleArgs]⟩ ⟨by norm_num, by norm_num⟩ rfl
  have h1' : a.PosScales := by rw [ha]; exact h1
  have h2' : a.PosEnergy := by rw [ha]; exact h2
  rw [← ha] at hg
  obtain ⟨K, L, T, hs, hf, hl, -, -, -, -, hk, -⟩ := genInit_ok hg
  have hE : g.kernel.Energetic := by rw [hk]; exact genScales_energetic h2' hs
  have : genScales env a = .ok (.vk 50 (0.5 * 1.7 ^ 2 * (180 : ℝ) ^ (-2 / 3 : ℝ)), 50, 3) := by
    rw [ha]
    unfold genScales
    simp [exampleArgs, heightPower_pos hz]
  rw [this] at hs
  simp only [Except.ok.injEq, Prod.mk.injEq] at hs
  have hK : g.kernel.Valid := by
    rw [hk, ← hs.1]
    exact ⟨by norm_num, by positivity⟩
  have hgood := genInit_good h1' hg
  obtain ⟨γ, hγ⟩ := exists_stream hgood (genInit_regular h1'.1 hg) hK hE
  obtain ⟨p, hp⟩ : ∃ p : ProfileArgs, p = ⟨90, 10, 0.1, "LOG", none⟩ := ⟨_, rfl⟩
  have hpv : p.Valid := by rw [hp]; exact ⟨Or.inl rfl, by norm_num, by norm_num, by norm_num⟩
  have hgen := generate_st (g := g.withStream γ) hgood hl p 2 0 (tot := ⟨g.Ny, g.Nz, []⟩) ⟨rfl, rfl⟩
  have hfr : (g.withStream γ).st 0 ⟨g.Ny, g.Nz, []⟩ = g.withStream γ := (show (g.withStream γ).Fresh from hf).st
  rw [hfr] at hgen
  rcases hgen with ⟨-, hgen⟩ | ⟨m, -, -, hbad, -⟩
  swap
  · exact absurd ⟨hγ _, hpv⟩ hbad
  have hinit := genInit_stream hg γ
  have hfin := C130_finite h1' hinit [(2, p)] (by
    intro c hc l _
    rw [List.mem_singleton] at hc
    subst hc
    simp only [hp]
    unfold Spec.meanWind
    rw [if_pos rfl]
    refine (C57_log (by norm_num) (by norm_num) (by norm_num)).2.2.1 _ ?_
    rw [ha]
    norm_num [exampleArgs])
  have hrun : (Gen.run [(2, p)] (g.withStream γ)).2 = ((g.withStream γ).generate p 2).2 := by
    simp only [Gen.run]
  rw [hrun, hgen] at hfin
  have hgen1 : (((g.withStream γ).run []).2.generate p 2).1 = _ := congrArg Prod.fst hgen
  exact ⟨a, _, g.withStream γ, _, p, _, h1', h2', by rw [ha]; rfl, by rw [ha]; decide, by rw [ha]; change Odd (9 : ℤ); decide, hinit, hK, hpv,
    hgen1, hfin⟩

end
end Verif
