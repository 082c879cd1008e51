import Verif.Model.FieldSharing
import Verif.Props.GeneratorNoise

/-!
# C125: the array that `generate` returns is the object's own field
-/

namespace Verif
open Fl

noncomputable section
open Classical

/-- Contents of array `a`. -/
def FieldSess.contents (s : FieldSess) (a : ℕ) : Option (Arr Fl) := s.heap[a]?

/-- The attribute refers to an array. -/
def FieldSess.Ok (s : FieldSess) : Prop := s.tot < s.heap.length

theorem view_total {s : FieldSess} (h : s.Ok) : s.contents s.tot = some s.view.total := by
  unfold FieldSess.contents FieldSess.view FieldSess.Ok at *
  simp [List.getD_eq_getElem?_getD, List.getElem?_eq_getElem h]

theorem block_sim (p : ProfileArgs) (i : ℕ) {s : FieldSess} (h : s.Ok) :
    (s.block p i).1 = (s.view.blockStep p i).1 ∧ (s.block p i).2.view = (s.view.blockStep p i).2 ∧ (s.block p i).2.Ok ∧
      (∀ a f, s.contents a = some f → (s.block p i).2.contents a = some f) ∧
      ((s.block p i).1 = .ok () → s.heap.length ≤ (s.block p i).2.tot) ∧ s.heap.length ≤ (s.block p i).2.heap.length := by
  have hT : ∀ e g, s.view.blockStep p i = (.error e, g) → g.total = s.view.total := by
    intro e g hg
    have h1 := (generateBlock_facts s.view).1.1
    unfold Gen.blockStep at hg
    rcases hx : s.view.generateBlock with ⟨r, g'⟩
    rw [hx] at hg h1
    simp only at hg h1
    cases r with
    | error e' => simp only [Prod.mk.injEq] at hg; rw [← hg.2, h1]
    | ok b =>
      simp only at hg
      cases hn : g'.normalizeBlock b p with
      | error e' => rw [hn] at hg; simp only [Prod.mk.injEq] at hg; rw [← hg.2, h1]
      | ok b2 =>
        rw [hn] at hg
        simp only at hg
        cases ha : g'.addLow i b2 with
        | error e' => rw [ha] at hg; simp only [Prod.mk.injEq] at hg; rw [← hg.2, h1]
        | ok b3 =>
          rw [ha] at hg
          simp only at hg
          by_cases hc : g'.total.n2 ≠ b3.n2 ∨ g'.total.n3 ≠ b3.n3
          · rw [if_pos hc] at hg; simp only [Prod.mk.injEq] at hg; rw [← hg.2, h1]
          · rw [if_neg hc] at hg; simp at hg
  unfold FieldSess.block
  rcases hx : s.view.blockStep p i with ⟨r, g⟩
  cases r with
  | error e =>
    refine ⟨rfl, ?_, h, fun a f hf => hf, fun hh => (by cases hh), le_rfl⟩
    have h1 := hT e g hx
    have h2 := view_total h
    unfold FieldSess.contents at h2
    show ({ g with total := s.heap.getD s.tot g.total } : Gen) = g
    rw [List.getD_eq_getElem?_getD, h2]
    simp only [Option.getD_some]
    rw [← h1]
  | ok u =>
    refine ⟨rfl, ?_, by simp [FieldSess.Ok], fun a f hf => ?_, fun _ => le_rfl, by simp⟩
    · simp [FieldSess.view, List.getD_eq_getElem?_getD]
    · unfold FieldSess.contents at hf ⊢
      have hlt : a < s.heap.length := by
        by_contra hh
        rw [List.getElem?_eq_none (not_lt.mp hh)] at hf; cases hf
      simpa [List.getElem?_append_left hlt] using hf

theorem heap_loop_sim (p : ProfileArgs) (n : ℕ) : ∀ (i : ℕ) {s : FieldSess}, s.Ok →
    (FieldSess.loop p n i s).1 = (Gen.loop p n i s.view).1 ∧ (FieldSess.loop p n i s).2.view = (Gen.loop p n i s.view).2 ∧
      (FieldSess.loop p n i s).2.Ok ∧
      (∀ a f, s.contents a = some f → (FieldSess.loop p n i s).2.contents a = some f) ∧
      (0 < n → (FieldSess.loop p n i s).1 = .ok () → s.heap.length ≤ (FieldSess.loop p n i s).2.tot) ∧
      s.heap.length ≤ (FieldSess.loop p n i s).2.heap.length := by
  induction n with
  | zero => intro i s h; exact ⟨rfl, rfl, h, fun _ _ hf => hf, fun h0 => absurd h0 (lt_irrefl _), le_rfl⟩
  | succ n ih =>
    intro i s h
    obtain ⟨h1, h2, h3, h4, h5, h6⟩ := block_sim p i h
    unfold FieldSess.loop Gen.loop
    rcases hb : s.block p i with ⟨r, s'⟩
    rcases hg : s.view.blockStep p i with ⟨r', g'⟩
    rw [hb, hg] at h1 h2
    rw [hb] at h3 h4 h5 h6
    simp only at h1 h2 h3 h4 h5 h6
    subst h1
    cases r with
    | error e => exact ⟨rfl, h2, h3, h4, fun _ hh => (by cases hh), h6⟩
    | ok u =>
      obtain ⟨k1, k2, k3, k4, k5, k6⟩ := ih (i + 1) h3
      simp only
      rw [h2] at k1 k2
      refine ⟨k1, k2, k3, fun a f hf => k4 a f (h4 a f hf), fun _ hok => ?_, h6.trans k6⟩
      rcases Nat.eq_zero_or_pos n with rfl | hn
      · exact h5 rfl
      · exact h6.trans (k5 hn hok)

/-- `generate` on arrays and `generate` on contents are the same. -/
theorem generate_sim (p : ProfileArgs) (n : ℕ) {s : FieldSess} (h : s.Ok) :
    (s.generate p n).2.view = (s.view.generate p n).2 ∧ (s.generate p n).2.Ok ∧
      (∀ a f, s.contents a = some f → (s.generate p n).2.contents a = some f) ∧
      (∀ a, (s.generate p n).1 = .ok a → a = (s.generate p n).2.tot ∧ (0 < n → s.contents a = none) ∧ (n = 0 → a = s.tot)) ∧
      (∀ e, (s.generate p n).1 = .error e ↔ (s.view.generate p n).1 = .error e) ∧
      (∀ f, (s.view.generate p n).1 = .ok f ↔ ∃ a, (s.generate p n).1 = .ok a ∧ (s.generate p n).2.contents a = some f) := by
  obtain ⟨h1, h2, h3, h4, h5, h6⟩ := heap_loop_sim p n 0 h
  unfold FieldSess.generate Gen.generate
  rcases hb : FieldSess.loop p n 0 s with ⟨r, s'⟩
  rcases hg : Gen.loop p n 0 s.view with ⟨r', g'⟩
  rw [hb, hg] at h1 h2
  rw [hb] at h3 h4 h5 h6
  simp only at h1 h2 h3 h4 h5 h6
  subst h1
  cases r with
  | error e =>
    exact ⟨h2, h3, h4, fun a ha => (by cases ha), fun e' => by simp, fun f => by simp⟩
  | ok u =>
    refine ⟨h2, h3, h4, fun a ha => ?_, fun e' => by simp, fun f => ?_⟩
    · simp only [Except.ok.injEq] at ha
      refine ⟨ha.symm, fun hn => ?_, fun hn => ?_⟩
      · rw [← ha]; exact List.getElem?_eq_none (h5 hn rfl)
      · subst hn
        simp only [FieldSess.loop, Prod.mk.injEq] at hb
        rw [← ha, ← hb.2]
    · have hv := view_total h3
      rw [h2] at hv
      constructor
      · intro hf
        simp only [Except.ok.injEq] at hf
        exact ⟨s'.tot, rfl, by rw [← hf]; exact hv⟩
      · rintro ⟨a, ha, hf⟩
        simp only [Except.ok.injEq] at ha
        subst ha
        rw [hv] at hf
        exact congrArg _ (Option.some.inj hf)

theorem fieldEdit_ok (a : ℕ) (f : Arr Fl) {s : FieldSess} (h : s.Ok) : (s.edit a f).Ok := by
  unfold FieldSess.edit
  split
  · exact h
  · split
    · simpa [FieldSess.Ok] using h
    · exact h

theorem fieldAfter_ok {cs : List FieldCmd} : ∀ {s : FieldSess}, s.Ok → (s.after cs).Ok := by
  induction cs with
  | nil => intro s h; exact h
  | cons c cs ih =>
    intro s h
    refine ih (s := c.run s) ?_
    cases c with
    | generate n p => exact (generate_sim p n h).2.1
    | edit a f => exact fieldEdit_ok a f h

theorem fieldStart_ok (g : Gen) : (FieldSess.start g).Ok := by simp [FieldSess.Ok, FieldSess.start]

/-- C125: without edits nothing can be noticed: the contents of the returned array are what `generate` computes. -/
theorem C125_value (g : Gen) (cs : List FieldCmd) (n : ℕ) (p : ProfileArgs) :
    ∀ f, (((FieldSess.start g).after cs).view.generate p n).1 = .ok f ↔
      ∃ a, (((FieldSess.start g).after cs).generate p n).1 = .ok a ∧
        (((FieldSess.start g).after cs).generate p n).2.contents a = some f :=
  (generate_sim p n (fieldAfter_ok (fieldStart_ok g))).2.2.2.2.2

/-- C125: the returned array is the object's own field.  It is a new array unless no block was asked for, in which case it is the
one the object had. -/
theorem C125_own (g : Gen) (cs : List FieldCmd) (n : ℕ) (p : ProfileArgs) {a : ℕ} {s' : FieldSess}
    (h : ((FieldSess.start g).after cs).generate p n = (.ok a, s')) :
    s'.contents a = some s'.view.total ∧
      (0 < n → ((FieldSess.start g).after cs).contents a = none) ∧
      (n = 0 → ((FieldSess.start g).after cs).contents a = some ((FieldSess.start g).after cs).view.total) := by
  have h0 := fieldAfter_ok (cs := cs) (fieldStart_ok g)
  obtain ⟨-, h2, -, h4, -⟩ := generate_sim p n h0
  rw [h] at h2 h4
  obtain ⟨k1, k2, k3⟩ := h4 a rfl
  refine ⟨by rw [k1]; exact view_total h2, k2, fun hn => ?_⟩
  rw [k3 hn]; exact view_total h0

/-- C125: arrays returned earlier are never changed by later calls, successful or not. -/
theorem C125_earlier (g : Gen) (cs : List FieldCmd) {a : ℕ} {f : Arr Fl} (h : ((FieldSess.start g).after cs).contents a = some f)
    {ds : List FieldCmd} (hds : ∀ c ∈ ds, ∃ n p, c = .generate n p) :
    (((FieldSess.start g).after cs).after ds).contents a = some f := by
  have h0 := fieldAfter_ok (cs := cs) (fieldStart_ok g)
  revert h h0
  generalize (FieldSess.start g).after cs = s
  induction ds generalizing s with
  | nil => intro h _; exact h
  | cons c ds ih =>
    intro h h0
    obtain ⟨n, p, rfl⟩ := hds c (by simp)
    have := generate_sim p n h0
    exact ih (fun d hd => hds d (by simp [hd])) _ (this.2.2.1 a f h) this.2.1

/-! ### Edits -/

theorem nextNoise_total (g : Gen) (T : Arr Fl) :
    ({ g with total := T } : Gen).nextNoise = ((g.nextNoise).1, { (g.nextNoise).2 with total := T }) := by
  obtain ⟨d1, d2, d3, l1, l2, l3, bn, nb, my, mz, k, rf, ga, pos, noise, tot, bl, low⟩ := g
  cases noise with
  | none => rfl
  | some old =>
    have key : ∀ (c : Prop) (_ : Decidable c) (x y : Except PyErr (Arr ℝ)) (s : Gen),
        (if c then (x, ({ s with total := T } : Gen)) else (y, { s with total := T })) =
          ((if c then (x, s) else (y, s)).1, { (if c then (x, s) else (y, s)).2 with total := T }) := by
      intro c _ x y s
      by_cases hc : c
      · simp only [if_pos hc]
      · simp only [if_neg hc]
    obtain ⟨G, hG⟩ : ∃ G : Gen, G = ⟨d1, d2, d3, l1, l2, l3, bn, nb, my, mz, k, rf, ga, pos, some old, tot, bl, low⟩ := ⟨_, rfl⟩
    have := key (¬ (old.planes.rotate G.Nx).length - sliceIdx (old.planes.rotate G.Nx).length (2 * G.nb + max 0 (G.bn - 1)) = G.Nx)
      inferInstance (.error .valueError) (.ok ⟨old.n2, old.n3,
        List.take (sliceIdx (old.planes.rotate G.Nx).length (2 * G.nb + max 0 (G.bn - 1))) (old.planes.rotate G.Nx) ++
          (G.sampleNoise G.Nx G.shape2.toNat G.shape3.toNat).1.planes⟩)
      (G.sampleNoise G.Nx G.shape2.toNat G.shape3.toNat).2
    subst hG
    exact this

theorem generateBlock_total (g : Gen) (T : Arr Fl) :
    ({ g with total := T } : Gen).generateBlock = ((g.generateBlock).1, { (g.generateBlock).2 with total := T }) := by
  unfold Gen.generateBlock
  rw [nextNoise_total]
  rcases g.nextNoise with ⟨r, g'⟩
  cases r with
  | error e => rfl
  | ok noise => rfl

/-- What a block does, apart from the field it is appended to. -/
theorem blockStep_total (p : ProfileArgs) (i : ℕ) (g : Gen) :
    ∃ (r : Except PyErr Unit) (g' : Gen) (l : List (Plane Fl)), ∀ T : Arr Fl, T.n2 = g.total.n2 → T.n3 = g.total.n3 →
      ({ g with total := T } : Gen).blockStep p i = (r, { g' with total := { T with planes := T.planes ++ l } }) := by
  rcases hx : g.generateBlock with ⟨r, g'⟩
  have hb : ∀ T : Arr Fl, ({ g with total := T } : Gen).generateBlock = (r, { g' with total := T }) := by
    intro T; rw [generateBlock_total, hx]
  cases r with
  | error e =>
    refine ⟨.error e, g', [], fun T _ _ => ?_⟩
    unfold Gen.blockStep
    rw [hb T]
    simp
  | ok b =>
    have hn : ∀ T : Arr Fl, ({ g' with total := T } : Gen).normalizeBlock b p = g'.normalizeBlock b p := fun T => rfl
    cases hnb : g'.normalizeBlock b p with
    | error e =>
      refine ⟨.error e, g', [], fun T _ _ => ?_⟩
      unfold Gen.blockStep
      rw [hb T]
      simp only
      rw [hn T, hnb]
      simp
    | ok b2 =>
      have hl : ∀ T : Arr Fl, ({ g' with total := T } : Gen).addLow i b2 = g'.addLow i b2 := fun T => rfl
      cases hal : g'.addLow i b2 with
      | error e =>
        refine ⟨.error e, g', [], fun T _ _ => ?_⟩
        unfold Gen.blockStep
        rw [hb T]
        simp only
        rw [hn T, hnb]
        simp only
        rw [hl T, hal]
        simp
      | ok b3 =>
        by_cases hc : g.total.n2 ≠ b3.n2 ∨ g.total.n3 ≠ b3.n3
        · refine ⟨.error .valueError, g', [], fun T h2 h3 => ?_⟩
          unfold Gen.blockStep
          rw [hb T]
          simp only
          rw [hn T, hnb]
          simp only
          rw [hl T, hal]
          simp only
          rw [if_pos (by rw [h2, h3]; exact hc)]
          simp
        · refine ⟨.ok (), g', b3.planes, fun T h2 h3 => ?_⟩
          unfold Gen.blockStep
          rw [hb T]
          simp only
          rw [hn T, hnb]
          simp only
          rw [hl T, hal]
          simp only
          rw [if_neg (by rw [h2, h3]; exact hc)]

theorem loop_total (p : ProfileArgs) (n : ℕ) : ∀ (i : ℕ) (g : Gen),
    ∃ (r : Except PyErr Unit) (g' : Gen) (l : List (Plane Fl)), ∀ T : Arr Fl, T.n2 = g.total.n2 → T.n3 = g.total.n3 →
      Gen.loop p n i ({ g with total := T } : Gen) = (r, { g' with total := { T with planes := T.planes ++ l } }) := by
  induction n with
  | zero => intro i g; exact ⟨.ok (), g, [], fun T _ _ => by simp [Gen.loop]⟩
  | succ n ih =>
    intro i g
    obtain ⟨r, g', l, h⟩ := blockStep_total p i g
    cases r with
    | error e =>
      refine ⟨.error e, g', l, fun T h2 h3 => ?_⟩
      unfold Gen.loop
      rw [h T h2 h3]
    | ok u =>
      obtain ⟨r', g'', l', h'⟩ := ih (i + 1) ({ g' with total := g.total } : Gen)
      refine ⟨r', g'', l ++ l', fun T h2 h3 => ?_⟩
      unfold Gen.loop
      rw [h T h2 h3]
      simp only
      have := h' { T with planes := T.planes ++ l } h2 h3
      simp only at this
      rw [this]
      simp

/-- What a call of `generate` does, apart from the field it extends. -/
theorem generate_total (p : ProfileArgs) (n : ℕ) (g : Gen) :
    ∃ (r : Except PyErr Unit) (g' : Gen) (l : List (Plane Fl)), ∀ T : Arr Fl, T.n2 = g.total.n2 → T.n3 = g.total.n3 →
      ({ g with total := T } : Gen).generate p n =
        (r.map fun _ => { T with planes := T.planes ++ l }, { g' with total := { T with planes := T.planes ++ l } }) := by
  obtain ⟨r, g', l, h⟩ := loop_total p n 0 g
  refine ⟨r, g', l, fun T h2 h3 => ?_⟩
  unfold Gen.generate
  rw [h T h2 h3]
  cases r <;> rfl

theorem contents_edit_self {s : FieldSess} {a : ℕ} {f x : Arr Fl} (hx : s.contents a = some x) (hs : x.SameShape f) :
    (s.edit a f).contents a = some f := by
  unfold FieldSess.contents at hx ⊢
  have hlt : a < s.heap.length := by
    by_contra hh
    rw [List.getElem?_eq_none (not_lt.mp hh)] at hx; cases hx
  unfold FieldSess.edit
  rw [hx]
  simp only [if_pos hs]
  simp [hlt]

theorem view_edit (s : FieldSess) (a : ℕ) (f : Arr Fl) :
    (s.edit a f).view = { s.view with total := (s.edit a f).view.total } := by
  have : (s.edit a f).gen = s.gen := by
    unfold FieldSess.edit
    split
    · rfl
    · split <;> rfl
  unfold FieldSess.view
  rw [this]

theorem tot_edit (s : FieldSess) (a : ℕ) (f : Arr Fl) : (s.edit a f).tot = s.tot := by
  unfold FieldSess.edit
  split
  · rfl
  · split <;> rfl

/-- C125: an edit of the latest returned array persists: the next call returns the edited field followed by exactly the planes it
would have appended without the edit, or raises exactly when it would have. -/
theorem C125_edit_persists (g : Gen) (cs : List FieldCmd) (n : ℕ) (p : ProfileArgs) {a : ℕ} {s' : FieldSess}
    (h : ((FieldSess.start g).after cs).generate p n = (.ok a, s')) {x f : Arr Fl} (hx : s'.contents a = some x)
    (hf : x.SameShape f) (m : ℕ) (q : ProfileArgs) :
    (∀ e, ((s'.edit a f).generate q m).1 = .error e ↔ (s'.generate q m).1 = .error e) ∧
    ∀ b s'', s'.generate q m = (.ok b, s'') → ∃ l c t y, s''.contents b = some ⟨x.n2, x.n3, x.planes ++ l⟩ ∧
      (s'.edit a f).generate q m = (.ok c, t) ∧ t.contents c = some y ∧ y.planes = f.planes ++ l := by
  have h0 := fieldAfter_ok (cs := cs) (fieldStart_ok g)
  obtain ⟨-, h2, -, h4, -⟩ := generate_sim p n h0
  rw [h] at h2 h4
  simp only at h2
  have ha : a = s'.tot := (h4 a rfl).1
  have hxv : x = s'.view.total := by
    have := view_total h2
    rw [← ha, hx] at this; exact Option.some.inj this
  have hf' : (s'.edit a f).view.total = f := by
    have := view_total (fieldEdit_ok a f h2)
    rw [tot_edit, ← ha, contents_edit_self hx hf] at this
    exact (Option.some.inj this).symm
  obtain ⟨r, g', l, hT⟩ := generate_total q m s'.view
  have e1 := hT s'.view.total rfl rfl
  have e2 := hT f (by rw [← hxv]; exact hf.1.symm) (by rw [← hxv]; exact hf.2.1.symm)
  have v2 : (s'.edit a f).view = { s'.view with total := f } := by rw [view_edit, hf']
  rw [← v2] at e2
  have e1' : s'.view.generate q m = _ := e1
  obtain ⟨-, -, -, -, s5, s6⟩ := generate_sim q m h2
  obtain ⟨-, -, -, -, t5, t6⟩ := generate_sim q m (fieldEdit_ok a f h2)
  constructor
  · intro e
    rw [t5 e, s5 e, e1', e2]
    cases r <;> simp [Except.map]
  · intro b s'' hb
    have hok : ∃ u, r = .ok u := by
      cases r with
      | ok u => exact ⟨u, rfl⟩
      | error e =>
        have : (s'.generate q m).1 = .error e := (s5 e).2 (by rw [e1']; rfl)
        rw [hb] at this; cases this
    obtain ⟨u, rfl⟩ := hok
    obtain ⟨b', k1, k2⟩ := (s6 _).1 (show (s'.view.generate q m).1 = .ok _ by rw [e1']; rfl)
    rw [hb] at k1 k2
    simp only [Except.ok.injEq] at k1
    subst k1
    obtain ⟨c, j1, j2⟩ := (t6 _).1 (show ((s'.edit a f).view.generate q m).1 = .ok _ by rw [e2]; rfl)
    refine ⟨l, c, ((s'.edit a f).generate q m).2, _, by rw [hxv]; exact k2, ?_, j2, rfl⟩
    rw [← j1]

/-- C125: an edit of any other array is not noticed by the object: its field, and with it the files, the divergence and the
results of later calls, are unchanged. -/
theorem C125_edit_elsewhere (g : Gen) (cs : List FieldCmd) {a : ℕ} (f : Arr Fl)
    (h : ((FieldSess.start g).after cs).tot ≠ a) :
    (((FieldSess.start g).after cs).edit a f).view = ((FieldSess.start g).after cs).view := by
  revert h
  generalize (FieldSess.start g).after cs = s
  intro h
  unfold FieldSess.edit
  split
  · rfl
  · split
    · unfold FieldSess.view
      simp [List.getD_eq_getElem?_getD, List.getElem?_set_ne h.symm]
    · rfl

theorem with_total_self (g : Gen) : ({ g with total := g.total } : Gen) = g := rfl

/-- C125: edits never disturb the generation itself: after any mixture of calls and edits the object is the one that the calls
alone produce, except for the contents of the field, which has the same shape. -/
theorem C125_stream (g : Gen) (cs : List FieldCmd) :
    ∃ T : Arr Fl, ((FieldSess.start g).after cs).view = { (g.run (generateCalls cs)).2 with total := T } ∧
      T.n2 = (g.run (generateCalls cs)).2.total.n2 ∧ T.n3 = (g.run (generateCalls cs)).2.total.n3 ∧
      T.planes.length = (g.run (generateCalls cs)).2.total.planes.length := by
  have key : ∀ (cs : List FieldCmd) (s : FieldSess) (g : Gen), s.Ok → (∃ T : Arr Fl, s.view = { g with total := T } ∧
      T.n2 = g.total.n2 ∧ T.n3 = g.total.n3 ∧ T.planes.length = g.total.planes.length) →
      ∃ T : Arr Fl, (s.after cs).view = { (g.run (generateCalls cs)).2 with total := T } ∧
      T.n2 = (g.run (generateCalls cs)).2.total.n2 ∧ T.n3 = (g.run (generateCalls cs)).2.total.n3 ∧
      T.planes.length = (g.run (generateCalls cs)).2.total.planes.length := by
    intro cs
    induction cs with
    | nil => intro s g _ h; exact h
    | cons c cs ih =>
      intro s g hs h
      obtain ⟨T, h1, h2, h3, h4⟩ := h
      cases c with
      | generate n p =>
        have hsim := generate_sim p n hs
        refine ih (s.generate p n).2 (g.generate p n).2 hsim.2.1 ?_
        obtain ⟨r, g', l, hT⟩ := generate_total p n g
        have e1 := hT T h2 h3
        have e2 := hT g.total rfl rfl
        have e2 : g.generate p n = _ := e2
        refine ⟨{ T with planes := T.planes ++ l }, ?_, ?_, ?_, ?_⟩
        · rw [hsim.1, h1, e1, e2]
        · rw [e2]; exact h2
        · rw [e2]; exact h3
        · rw [e2]; simp [h4]
      | edit a f =>
        refine ih (s.edit a f) g (fieldEdit_ok a f hs) ⟨(s.edit a f).view.total, ?_, ?_⟩
        · rw [view_edit, h1]
        · have hT : s.view.total = T := by rw [h1]
          by_cases hat : s.tot = a
          · cases hx : s.heap[a]? with
            | none =>
              have : s.edit a f = s := by unfold FieldSess.edit; rw [hx]
              rw [this, hT]; exact ⟨h2, h3, h4⟩
            | some x =>
              have hxT : x = T := by
                have := view_total hs
                unfold FieldSess.contents at this
                rw [hat, hx, hT] at this; exact Option.some.inj this
              by_cases hsh : x.SameShape f
              · have hv := view_total (fieldEdit_ok a f hs)
                rw [tot_edit, hat, contents_edit_self hx hsh] at hv
                rw [← Option.some.inj hv]
                subst hxT
                refine ⟨hsh.1 ▸ h2, hsh.2.1 ▸ h3, ?_⟩
                have := congrArg List.length hsh.2.2
                simp only [List.length_map] at this
                rw [← this, h4]
              · have : s.edit a f = s := by unfold FieldSess.edit; rw [hx]; simp only [if_neg hsh]
                rw [this, hT]; exact ⟨h2, h3, h4⟩
          · have : (s.edit a f).view = s.view := by
              unfold FieldSess.edit
              split
              · rfl
              · split
                · unfold FieldSess.view
                  simp [List.getD_eq_getElem?_getD, List.getElem?_set_ne (Ne.symm hat)]
                · rfl
            rw [this, hT]; exact ⟨h2, h3, h4⟩
  exact key cs (FieldSess.start g) g (fieldStart_ok g) ⟨g.total, rfl, rfl, rfl, rfl⟩

/-- Two blocks really generated, then an edit of the returned array. -/
example (env : GenEnv) : ∃ (g : Gen) (p : ProfileArgs) (a : ℕ) (s' : FieldSess) (x : Arr Fl),
    (FieldSess.start g).generate p 2 = (.ok a, s') ∧ s'.contents a = some x ∧ x.SameShape x := by
  obtain ⟨hp, he, ⟨g, hg, hK⟩, -⟩ := exampleArgs_physical env
  have hgood := genInit_good hp hg
  obtain ⟨K, L, T, hs, hf, hl, -, -, -, -, hk, -⟩ := genInit_ok hg
  obtain ⟨γ, hγ⟩ := exists_stream hgood (genInit_regular hp.1 hg) hK (by rw [hk]; exact genScales_energetic he hs)
  have hok := run_ok (g := g.withStream γ) hgood hl hγ [(2, ⟨1, 1, 1, "LOG", none⟩)] (by
    intro c hc
    rw [List.mem_singleton] at hc
    subst hc
    simp [ProfileArgs.Valid]) 0 ⟨g.Ny, g.Nz, []⟩ ⟨rfl, rfl⟩
  have hf' : (g.withStream γ).Fresh := hf
  rw [show (g.withStream γ).st 0 ⟨g.Ny, g.Nz, []⟩ = g.withStream γ from hf'.st] at hok
  obtain ⟨f, hfk⟩ := hok _ (by simp only [Gen.run]; exact List.mem_cons_self)
  obtain ⟨a, h1, h2⟩ := (C125_value (g.withStream γ) [] 2 ⟨1, 1, 1, "LOG", none⟩ f).1 hfk
  exact ⟨g.withStream γ, _, a, _, f, Prod.ext h1 rfl, h2, rfl, rfl, rfl⟩

/-- A call and an edit: the field of a new object has no plane; an array of the same shape. -/
example (g : Gen) (p : ProfileArgs) : (FieldSess.start g).generate p 0 = (.ok 0, FieldSess.start g) ∧
    (FieldSess.start g).contents 0 = some g.total ∧ g.total.SameShape g.total := ⟨rfl, rfl, rfl, rfl, rfl⟩

end
end Verif
