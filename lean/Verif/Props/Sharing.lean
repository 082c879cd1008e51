import Verif.Model.Sharing
import Verif.Props.ParamVector

/-!
# C124: setting the parameters from a tensor ties the object to that tensor, setting them from an array does not
-/

namespace Verif
open Fl

noncomputable section
open Classical

namespace Spec

/-- Optimisers do not change the number of parameters; other commands are always possible. -/
def ShareLegal (s : Shared) : ShareCmd → Prop
  | .calibrate i _ opt => ∀ v, s.read i = some v →
      ∀ e, (opt e).final.length = v.length ∧ ∀ θ ∈ (opt e).queries, θ.length = v.length
  | _ => True

/-- Every command of a sequence is possible when it comes. -/
def ShareRun : Shared → List ShareCmd → Prop
  | _, [] => True
  | s, c :: cs => ShareLegal s c ∧ ShareRun (c.run s).2 cs

/-- States a session can reach. -/
def ShareReach (s : Shared) : Prop := ∃ cs, ShareRun Shared.empty cs ∧ s = Shared.empty.after cs

end Spec
open Spec

/-- Tensors that objects are tied to exist and have as many entries as there are parameters. -/
def Shared.Inv (s : Shared) : Prop :=
  ∀ (i : ℕ) (o : SharedObj) (t : ℕ), s.objs[i]? = some o → o.tied = some t →
    ∃ v : List ℝ, s.tensors[t]? = some v ∧ v.length = (o.prob.ops.paramVec o.learnNu).length

theorem overwrite_length (a b : List ℝ) : (overwrite a b).length = a.length := by simp [overwrite]

theorem overwrite_eq {a b : List ℝ} (h : b.length = a.length) : overwrite a b = b := by
  apply List.ext_getElem
  · simp [overwrite, h]
  · intro k h1 h2
    simp [overwrite, List.getElem?_eq_getElem h2]

theorem current_tied {s : Shared} {o : SharedObj} {t : ℕ} {v : List ℝ} (ht : o.tied = some t) (hv : s.tensors[t]? = some v)
    (hl : v.length = (o.prob.ops.paramVec o.learnNu).length) :
    (s.current o).ops.paramVec o.learnNu = v := by
  have : (s.current o).ops = o.prob.ops.setVec o.learnNu v := by
    simp [Shared.current, ht, List.getD_eq_getElem?_getD, hv]
  rw [this]; exact paramVec_setVec _ _ _ hl

theorem current_free {s : Shared} {o : SharedObj} (ht : o.tied = none) : s.current o = o.prob := by
  simp [Shared.current, ht]

theorem read_tied {s : Shared} (hs : s.Inv) {i t : ℕ} {o : SharedObj} (ho : s.objs[i]? = some o) (ht : o.tied = some t) :
    ∃ v, s.tensors[t]? = some v ∧ s.read i = some v := by
  obtain ⟨v, hv, hl⟩ := hs i o t ho ht
  exact ⟨v, hv, by simp [Shared.read, ho, current_tied ht hv hl]⟩

theorem current_arch {s : Shared} (hs : s.Inv) {i : ℕ} {o : SharedObj} (ho : s.objs[i]? = some o) :
    Arch o.learnNu (s.current o).ops o.prob.ops := by
  cases ht : o.tied with
  | none => rw [current_free ht]; exact .of_same _ (.refl _)
  | some t =>
    obtain ⟨v, hv, hl⟩ := hs i o t ho ht
    have : (s.current o).ops = o.prob.ops.setVec o.learnNu v := by
      simp [Shared.current, ht, List.getD_eq_getElem?_getD, hv]
    rw [this]; exact Arch.setVec _ _ hl

theorem problem_calibrate_ops (cfg : TrainCfg) (opt : ℕ → OptStep) (p : Problem) :
    (p.calibrate cfg opt).2.ops = (Verif.calibrate cfg opt p.ops).2.ops := by
  unfold Problem.calibrate
  dsimp only
  split <;> rename_i heq <;> rw [heq]

theorem problem_calibrate_fst (cfg : TrainCfg) (opt : ℕ → OptStep) (p : Problem) :
    (p.calibrate cfg opt).1 = (Verif.calibrate cfg opt p.ops).1 := by
  unfold Problem.calibrate
  dsimp only
  split <;> rename_i heq <;> rw [heq]

theorem calibrate_result {cfg : TrainCfg} {opt : ℕ → OptStep} {s : OPS} {c : Calibrated}
    (h : (Verif.calibrate cfg opt s).1 = .ok c) :
    c = calibratedParams cfg.prob.learnable ((Verif.calibrate cfg opt s).2.ops.paramVec cfg.prob.learnNu) := by
  unfold Verif.calibrate at h ⊢
  split at h
  · cases h
  · rename_i st heq
    split at h
    · cases h
    · rename_i st2 heq2
      simp only [Except.ok.injEq] at h
      exact h.symm

theorem calibrate_arch {s : Shared} (hs : s.Inv) {i : ℕ} {o : SharedObj} (ho : s.objs[i]? = some o) {cfg : TrainCfg}
    {opt : ℕ → OptStep} (hc : ShareLegal s (.calibrate i cfg opt)) :
    Arch o.learnNu ((s.current o).calibrate (cfg.forObj o) opt).2.ops o.prob.ops := by
  rw [problem_calibrate_ops]
  refine (arch_calibrate (ln := o.learnNu) rfl ?_).trans (current_arch hs ho)
  exact hc _ (by simp [Shared.read, ho])

/-- Contents change, shapes do not. -/
theorem share_tensors (c : ShareCmd) (s : Shared) {t : ℕ} {v : List ℝ} (hv : s.tensors[t]? = some v) :
    ∃ w, (c.run s).2.tensors[t]? = some w ∧ w.length = v.length := by
  have hlt : t < s.tensors.length := by
    by_contra h
    rw [List.getElem?_eq_none (not_lt.mp h)] at hv; cases hv
  cases c with
  | tensor u => exact ⟨v, by simp [ShareCmd.run, List.getElem?_append_left hlt, hv], rfl⟩
  | write t' u =>
    simp only [ShareCmd.run]
    cases hw : s.tensors[t']? with
    | none => exact ⟨v, hv, rfl⟩
    | some w =>
      dsimp only
      by_cases hl : u.length ≠ w.length
      · rw [if_pos hl]; exact ⟨v, hv, rfl⟩
      · rw [if_neg hl]
        by_cases htt : t' = t
        · subst htt
          refine ⟨u, by simp [hlt], ?_⟩
          rw [hw] at hv; cases hv; simpa using hl
        · exact ⟨v, by simp [List.getElem?_set_ne htt, hv], rfl⟩
  | create p ln => exact ⟨v, hv, rfl⟩
  | setArray i u =>
    refine ⟨v, ?_, rfl⟩
    simp only [ShareCmd.run]
    split
    · exact hv
    · split <;> exact hv
  | setTensor i t' =>
    refine ⟨v, ?_, rfl⟩
    simp only [ShareCmd.run]
    split
    · split <;> exact hv
    · exact hv
  | calibrate i cfg opt =>
    simp only [ShareCmd.run]
    split
    · exact ⟨v, hv, rfl⟩
    · rename_i o ho
      dsimp only
      split
      · exact ⟨v, hv, rfl⟩
      · rename_i t' ht'
        by_cases htt : t' = t
        · subst htt
          exact ⟨overwrite v _, by simp [List.getElem?_modify, hv]; rfl, overwrite_length _ _⟩
        · exact ⟨v, by simp [List.getElem?_modify, htt, hv], rfl⟩

theorem objs_set_cases {l : List SharedObj} {i j : ℕ} {o o' : SharedObj} (h : (l.set i o)[j]? = some o') :
    (j = i ∧ o' = o) ∨ (j ≠ i ∧ l[j]? = some o') := by
  by_cases hij : i = j
  · subst hij
    rw [List.getElem?_set] at h
    simp only [if_true] at h
    split at h
    · exact .inl ⟨rfl, by cases h; rfl⟩
    · cases h
  · rw [List.getElem?_set_ne hij] at h
    exact .inr ⟨fun hh => hij hh.symm, h⟩

theorem setParameters_ok {ln : Bool} {v : List ℝ} {s s' : OPS} {u : Unit} (h : s.setParameters ln v = (.ok u, s')) :
    v.length = (s.paramVec ln).length ∧ s' = s.setVec ln v := by
  by_cases hl : v.length ≠ (s.paramVec ln).length
  · rw [C37_wrong_length ln s v hl] at h; cases h
  · push Not at hl
    refine ⟨hl, ?_⟩
    unfold OPS.setParameters at h
    rw [if_neg (by simpa using hl)] at h
    exact (Prod.mk.inj h).2.symm

theorem share_inv {s : Shared} (hs : s.Inv) {c : ShareCmd} (hc : ShareLegal s c) : (c.run s).2.Inv := by
  intro j o' t ho' ht'
  -- an object that was there before with as many parameters
  have old : ∀ o, s.objs[j]? = some o → o.tied = some t →
      (o'.prob.ops.paramVec o'.learnNu).length = (o.prob.ops.paramVec o.learnNu).length →
      ∃ v, (c.run s).2.tensors[t]? = some v ∧ v.length = (o'.prob.ops.paramVec o'.learnNu).length := by
    intro o ho ht hl
    obtain ⟨v, hv, hvl⟩ := hs j o t ho ht
    obtain ⟨w, hw, hwl⟩ := share_tensors c s hv
    exact ⟨w, hw, by rw [hwl, hvl, hl]⟩
  cases c with
  | tensor u => exact old o' ho' ht' rfl
  | write t' u =>
    refine old o' ?_ ht' rfl
    simp only [ShareCmd.run] at ho'
    revert ho'
    split
    · exact id
    · split <;> exact id
  | create p ln =>
    simp only [ShareCmd.run] at ho'
    by_cases hj : j < s.objs.length
    · rw [List.getElem?_append_left hj] at ho'
      exact old o' ho' ht' rfl
    · rw [List.getElem?_append_right (not_lt.mp hj)] at ho'
      have := List.mem_of_getElem? ho'
      simp only [List.mem_singleton] at this
      rw [this] at ht'; cases ht'
  | setArray i u =>
    by_cases hold : (ShareCmd.run (.setArray i u) s).2 = s
    · rw [hold] at ho'; exact old o' ho' ht' rfl
    · simp only [ShareCmd.run] at ho' hold
      revert ho' hold
      split
      · intro _ h; exact absurd rfl h
      · split
        · intro _ h; exact absurd rfl h
        · intro ho' _
          rcases objs_set_cases ho' with ⟨_, h⟩ | ⟨_, h⟩
          · rw [h] at ht'; cases ht'
          · exact old o' h ht' rfl
  | setTensor i t' =>
    by_cases hold : (ShareCmd.run (.setTensor i t') s).2 = s
    · rw [hold] at ho'; exact old o' ho' ht' rfl
    · simp only [ShareCmd.run] at ho' hold ⊢
      revert ho' hold
      split
      · rename_i o v ho hv
        split
        · intro _ h; exact absurd rfl h
        · rename_i u ops heq
          intro ho' _
          rcases objs_set_cases ho' with ⟨_, h⟩ | ⟨_, h⟩
          · rw [h] at ht'
            cases ht'
            obtain ⟨hl, hops⟩ := setParameters_ok heq
            refine ⟨v, hv, ?_⟩
            rw [h]
            dsimp only
            rw [hops, paramVec_setVec _ _ _ hl]
          · exact hs j o' t h ht'
      · intro _ h; exact absurd rfl h
  | calibrate i cfg opt =>
    have hA := @calibrate_arch s hs i
    by_cases hold : (ShareCmd.run (.calibrate i cfg opt) s).2.objs = s.objs
    · rw [hold] at ho'; exact old o' ho' ht' rfl
    · cases ho : s.objs[i]? with
      | none => simp [ShareCmd.run, ho] at hold
      | some o =>
        have e : (ShareCmd.run (.calibrate i cfg opt) s).2.objs =
            s.objs.set i ⟨((s.current o).calibrate (cfg.forObj o) opt).2, o.learnNu, o.tied⟩ := by
          simp only [ShareCmd.run, ho]
          cases o.tied <;> rfl
        rw [e] at ho'
        rcases objs_set_cases ho' with ⟨hj, h⟩ | ⟨_, h⟩
        · rw [h] at ht'
          subst hj
          refine old o ho ht' ?_
          rw [h]
          exact (hA ho hc).length
        · exact old o' h ht' rfl

theorem inv_empty : Shared.empty.Inv := by
  intro i o t h; simp [Shared.empty] at h

theorem after_cons (c : ShareCmd) (cs : List ShareCmd) (s : Shared) : s.after (c :: cs) = (c.run s).2.after cs := rfl

theorem inv_after {cs : List ShareCmd} : ∀ {s : Shared}, s.Inv → ShareRun s cs → (s.after cs).Inv := by
  induction cs with
  | nil => intro s hs _; exact hs
  | cons c cs ih => intro s hs h; exact ih (share_inv hs h.1) h.2

theorem inv_reach {s : Shared} (h : ShareReach s) : s.Inv := by
  obtain ⟨cs, hr, rfl⟩ := h; exact inv_after inv_empty hr

/-- A command that does not set the parameters of object `i` leaves what it is tied to. -/
theorem share_tied (c : ShareCmd) (s : Shared) {i : ℕ} {o : SharedObj} (ho : s.objs[i]? = some o) (hc : c.sets ≠ some i) :
    ∃ o', (c.run s).2.objs[i]? = some o' ∧ o'.tied = o.tied ∧ o'.learnNu = o.learnNu := by
  have hlt : i < s.objs.length := by
    by_contra h
    rw [List.getElem?_eq_none (not_lt.mp h)] at ho; cases ho
  cases c with
  | tensor u => exact ⟨o, ho, rfl, rfl⟩
  | write t' u =>
    refine ⟨o, ?_, rfl, rfl⟩
    simp only [ShareCmd.run]
    split
    · exact ho
    · split <;> exact ho
  | create p ln => exact ⟨o, by simp [ShareCmd.run, List.getElem?_append_left hlt, ho], rfl, rfl⟩
  | setArray j u =>
    have hj : j ≠ i := fun h => hc (by rw [h]; rfl)
    refine ⟨o, ?_, rfl, rfl⟩
    simp only [ShareCmd.run]
    split
    · exact ho
    · split
      · exact ho
      · simpa [List.getElem?_set_ne hj] using ho
  | setTensor j u =>
    have hj : j ≠ i := fun h => hc (by rw [h]; rfl)
    refine ⟨o, ?_, rfl, rfl⟩
    simp only [ShareCmd.run]
    split
    · split
      · exact ho
      · simpa [List.getElem?_set_ne hj] using ho
    · exact ho
  | calibrate j cfg opt =>
    cases hoj : s.objs[j]? with
    | none => exact ⟨o, by simp [ShareCmd.run, hoj, ho], rfl, rfl⟩
    | some oj =>
      have e : (ShareCmd.run (.calibrate j cfg opt) s).2.objs =
          s.objs.set j ⟨((s.current oj).calibrate (cfg.forObj oj) opt).2, oj.learnNu, oj.tied⟩ := by
        simp only [ShareCmd.run, hoj]
        cases oj.tied <;> rfl
      rw [e]
      by_cases hj : j = i
      · subst hj
        rw [ho] at hoj; cases hoj
        exact ⟨⟨((s.current o).calibrate (cfg.forObj o) opt).2, o.learnNu, o.tied⟩, by simp [List.getElem?_set, hlt], rfl, rfl⟩
      · exact ⟨o, by simp [List.getElem?_set_ne hj, ho], rfl, rfl⟩

theorem after_tied {cs : List ShareCmd} : ∀ {s : Shared} {i : ℕ} {o : SharedObj}, s.objs[i]? = some o →
    (∀ c ∈ cs, c.sets ≠ some i) →
    ∃ o', (s.after cs).objs[i]? = some o' ∧ o'.tied = o.tied ∧ o'.learnNu = o.learnNu := by
  induction cs with
  | nil => intro s i o ho _; exact ⟨o, ho, rfl, rfl⟩
  | cons c cs ih =>
    intro s i o ho h
    obtain ⟨o1, h1, h2, h3⟩ := share_tied c s ho (h c (by simp))
    obtain ⟨o2, k1, k2, k3⟩ := ih h1 (fun d hd => h d (by simp [hd]))
    exact ⟨o2, k1, k2.trans h2, k3.trans h3⟩

theorem setTensor_ok {s s' : Shared} {i t : ℕ} {r : Option Calibrated} (h : (ShareCmd.setTensor i t).run s = (.ok r, s')) :
    ∃ o', s'.objs[i]? = some o' ∧ o'.tied = some t := by
  simp only [ShareCmd.run] at h
  split at h
  · rename_i o v ho hv
    have hlt : i < s.objs.length := by
      by_contra hh
      rw [List.getElem?_eq_none (not_lt.mp hh)] at ho; cases ho
    split at h
    · cases h
    · cases h
      exact ⟨_, by simp [List.getElem?_set, hlt]; rfl, rfl⟩
  · cases h

theorem share_reach_step {s : Shared} (hs : s.Inv) {c : ShareCmd} (hc : ShareLegal s c) {r : Except PyErr (Option Calibrated)}
    {s' : Shared} (h : c.run s = (r, s')) : s'.Inv := by
  have := share_inv hs hc; rwa [h] at this

/-- C124: once an object's parameters have been set from a tensor, then whatever happens afterwards - fits of this object and of
others, failed or not, edits of the tensor, new objects - the object's parameters are the contents of that tensor, until the
parameters of the object are set again. -/
theorem C124_tied {s s' : Shared} (hs : ShareReach s) {i t : ℕ} {r : Option Calibrated}
    (h : (ShareCmd.setTensor i t).run s = (.ok r, s')) {cs : List ShareCmd} (hcs : ShareRun s' cs)
    (hset : ∀ c ∈ cs, c.sets ≠ some i) :
    ∃ v, (s'.after cs).tensors[t]? = some v ∧ (s'.after cs).read i = some v := by
  have h1 := share_reach_step (inv_reach hs) (c := .setTensor i t) trivial h
  obtain ⟨o, ho, ht⟩ := setTensor_ok h
  obtain ⟨o', ho', ht', _⟩ := after_tied ho hset
  exact read_tied (inv_after h1 hcs) ho' (ht'.trans ht)

/-- C124: an in-place edit of the tensor is an edit of the object. -/
theorem C124_edit {s s' : Shared} (hs : ShareReach s) {i t : ℕ} {r : Option Calibrated}
    (h : (ShareCmd.setTensor i t).run s = (.ok r, s')) {cs : List ShareCmd} (hcs : ShareRun s' cs)
    (hset : ∀ c ∈ cs, c.sets ≠ some i) {v w : List ℝ} (hv : (s'.after cs).tensors[t]? = some v) (hw : w.length = v.length) :
    ((ShareCmd.write t w).run (s'.after cs)).2.read i = some w := by
  have h1 := share_reach_step (inv_reach hs) (c := .setTensor i t) trivial h
  obtain ⟨o, ho, ht⟩ := setTensor_ok h
  obtain ⟨o', ho', ht', _⟩ := after_tied ho hset
  have h2 := inv_after h1 hcs
  obtain ⟨o'', ho'', ht'', _⟩ := share_tied (.write t w) (s'.after cs) ho' (by simp [ShareCmd.sets])
  obtain ⟨u, hu, hr⟩ := read_tied (share_inv h2 (c := .write t w) trivial) ho'' (ht''.trans (ht'.trans ht))
  rw [hr, ← hu]
  have hlt : t < (s'.after cs).tensors.length := by
    by_contra hh
    rw [List.getElem?_eq_none (not_lt.mp hh)] at hv; cases hv
  simp only [ShareCmd.run, hv]
  rw [if_neg (by simpa using hw)]
  simp [hlt]

/-- C124: objects set from the same tensor have the same parameters from then on. -/
theorem C124_two {s s1 s2 s3 : Shared} (hs : ShareReach s) {i j t : ℕ} {r r' : Option Calibrated}
    (h : (ShareCmd.setTensor i t).run s = (.ok r, s1)) {cs : List ShareCmd} (hcs : ShareRun s1 cs)
    (hset : ∀ c ∈ cs, c.sets ≠ some i) (h2 : s1.after cs = s2) (hij : i ≠ j)
    (h3 : (ShareCmd.setTensor j t).run s2 = (.ok r', s3)) {ds : List ShareCmd} (hds : ShareRun s3 ds)
    (hd : ∀ c ∈ ds, c.sets ≠ some i ∧ c.sets ≠ some j) :
    ∃ v, (s3.after ds).tensors[t]? = some v ∧ (s3.after ds).read i = some v ∧ (s3.after ds).read j = some v := by
  have k1 := share_reach_step (inv_reach hs) (c := .setTensor i t) trivial h
  have k2 : s2.Inv := h2 ▸ inv_after k1 hcs
  have k3 := share_reach_step k2 (c := .setTensor j t) trivial h3
  obtain ⟨o, ho, ht⟩ := setTensor_ok h
  obtain ⟨o', ho', ht', _⟩ := after_tied ho hset
  rw [h2] at ho'
  obtain ⟨o2, ho2, ht2, _⟩ := share_tied (.setTensor j t) s2 ho' (by simpa [ShareCmd.sets] using hij.symm)
  rw [h3] at ho2
  obtain ⟨o3, ho3, ht3, _⟩ := after_tied ho2 (fun c hc => (hd c hc).1)
  obtain ⟨p, hp, hpt⟩ := setTensor_ok h3
  obtain ⟨p', hp', hpt', _⟩ := after_tied hp (fun c hc => (hd c hc).2)
  have k4 := inv_after k3 hds
  obtain ⟨v, hv, hr⟩ := read_tied k4 ho3 (ht3.trans (ht2.trans (ht'.trans ht)))
  obtain ⟨w, hw, hr'⟩ := read_tied k4 hp' (hpt'.trans hpt)
  rw [hv] at hw; cases hw
  exact ⟨v, hv, hr, hr'⟩

/-- C124: a fit of a tied object is a fit of the tensor: afterwards the tensor holds the parameters the training ended with, and
a returned dictionary is computed from its entries. -/
theorem C124_fit {s : Shared} (hs : ShareReach s) {i t : ℕ} {o : SharedObj} (ho : s.objs[i]? = some o) (ht : o.tied = some t)
    {cfg : TrainCfg} {opt : ℕ → OptStep} (hc : ShareLegal s (.calibrate i cfg opt)) :
    ∃ v w, s.tensors[t]? = some v ∧ s.read i = some v ∧
      ((ShareCmd.calibrate i cfg opt).run s).2.tensors[t]? = some w ∧ ((ShareCmd.calibrate i cfg opt).run s).2.read i = some w ∧
      w = (Verif.calibrate (cfg.forObj o) opt (o.prob.ops.setVec o.learnNu v)).2.ops.paramVec o.learnNu ∧
      ∀ c, ((ShareCmd.calibrate i cfg opt).run s).1 = .ok (some c) →
        c.L = Real.exp (w.getD 0 0) ∧ c.Gamma = Real.exp (w.getD 1 0) ∧ c.sigma = Real.exp (w.getD 2 0) ∧
        (cfg.prob.learnable = true → c.pq = some (w.getD 3 0, w.getD 4 0)) := by
  have hi := inv_reach hs
  obtain ⟨v, hv, hr⟩ := read_tied hi ho ht
  obtain ⟨v', hv', hl⟩ := hi i o t ho ht
  rw [hv] at hv'; cases hv'
  have hcur : (s.current o).ops = o.prob.ops.setVec o.learnNu v := by
    simp [Shared.current, ht, List.getD_eq_getElem?_getD, hv]
  have hA := calibrate_arch hi ho hc
  have hlen : (((s.current o).calibrate (cfg.forObj o) opt).2.ops.paramVec o.learnNu).length = v.length := by
    rw [hA.length, hl]
  obtain ⟨w, hw⟩ : ∃ w, w = ((s.current o).calibrate (cfg.forObj o) opt).2.ops.paramVec o.learnNu := ⟨_, rfl⟩
  have htens : ((ShareCmd.calibrate i cfg opt).run s).2.tensors[t]? = some w := by
    simp [ShareCmd.run, ho, ht, List.getElem?_modify, hv, ← hw, overwrite_eq (a := v) (b := w) (by rw [hw, hlen])]
  obtain ⟨o', ho', ht', _⟩ := share_tied (.calibrate i cfg opt) s ho (by simp [ShareCmd.sets])
  obtain ⟨w', hw', hr'⟩ := read_tied (share_inv hi hc) ho' (ht'.trans ht)
  rw [htens] at hw'; cases hw'
  refine ⟨v, w, hv, hr, htens, hr', by rw [hw, problem_calibrate_ops, hcur], fun c hcc => ?_⟩
  have h1 : ((s.current o).calibrate (cfg.forObj o) opt).1 = .ok c := by
    simp only [ShareCmd.run, ho] at hcc
    revert hcc
    generalize ((s.current o).calibrate (cfg.forObj o) opt).1 = x
    cases x with
    | error e => intro h; cases h
    | ok y => intro h; cases h; rfl
  rw [problem_calibrate_fst] at h1
  have h2 := calibrate_result h1
  rw [← problem_calibrate_ops] at h2
  change c = calibratedParams cfg.prob.learnable (((s.current o).calibrate (cfg.forObj o) opt).2.ops.paramVec o.learnNu) at h2
  rw [← hw] at h2
  subst h2
  exact ⟨rfl, rfl, rfl, fun hb => by simp [calibratedParams, hb]⟩

theorem share_free (c : ShareCmd) (s : Shared) {i : ℕ} {o : SharedObj} (ho : s.objs[i]? = some o) (hc : c.on ≠ some i) :
    (c.run s).2.objs[i]? = some o := by
  have hlt : i < s.objs.length := by
    by_contra h
    rw [List.getElem?_eq_none (not_lt.mp h)] at ho; cases ho
  cases c with
  | tensor u => exact ho
  | write t' u =>
    simp only [ShareCmd.run]
    split
    · exact ho
    · split <;> exact ho
  | create p ln => simp [ShareCmd.run, List.getElem?_append_left hlt, ho]
  | setArray j u =>
    have hj : j ≠ i := fun h => hc (by rw [h]; rfl)
    simp only [ShareCmd.run]
    split
    · exact ho
    · split
      · exact ho
      · simpa [List.getElem?_set_ne hj] using ho
  | setTensor j u =>
    have hj : j ≠ i := fun h => hc (by rw [h]; rfl)
    simp only [ShareCmd.run]
    split
    · split
      · exact ho
      · simpa [List.getElem?_set_ne hj] using ho
    · exact ho
  | calibrate j cfg opt =>
    have hj : j ≠ i := fun h => hc (by rw [h]; rfl)
    cases hoj : s.objs[j]? with
    | none => simp [ShareCmd.run, hoj, ho]
    | some oj =>
      have e : (ShareCmd.run (.calibrate j cfg opt) s).2.objs =
          s.objs.set j ⟨((s.current oj).calibrate (cfg.forObj oj) opt).2, oj.learnNu, oj.tied⟩ := by
        simp only [ShareCmd.run, hoj]
        cases oj.tied <;> rfl
      rw [e, List.getElem?_set_ne hj, ho]

theorem after_free {cs : List ShareCmd} : ∀ {s : Shared} {i : ℕ} {o : SharedObj}, s.objs[i]? = some o →
    (∀ c ∈ cs, c.on ≠ some i) → (s.after cs).objs[i]? = some o := by
  induction cs with
  | nil => intro s i o ho _; exact ho
  | cons c cs ih =>
    intro s i o ho h
    exact ih (share_free c s ho (h c (by simp))) (fun d hd => h d (by simp [hd]))

theorem read_free {s : Shared} {i : ℕ} {o : SharedObj} (ho : s.objs[i]? = some o) (ht : o.tied = none) :
    s.read i = some (o.prob.ops.paramVec o.learnNu) := by
  simp [Shared.read, ho, current_free ht]

theorem setArray_ok {s s' : Shared} {i : ℕ} {v : List ℝ} {r : Option Calibrated}
    (h : (ShareCmd.setArray i v).run s = (.ok r, s')) :
    ∃ o', s'.objs[i]? = some o' ∧ o'.tied = none ∧ o'.prob.ops.paramVec o'.learnNu = v := by
  simp only [ShareCmd.run] at h
  split at h
  · cases h
  · rename_i o ho
    have hlt : i < s.objs.length := by
      by_contra hh
      rw [List.getElem?_eq_none (not_lt.mp hh)] at ho; cases ho
    split at h
    · cases h
    · rename_i u ops heq
      cases h
      obtain ⟨hl, hops⟩ := setParameters_ok heq
      refine ⟨_, by simp [List.getElem?_set, hlt]; rfl, rfl, ?_⟩
      dsimp only
      rw [hops, paramVec_setVec _ _ _ hl]

/-- C124: an object whose parameters were set from an array depends on nobody: whatever is done with tensors and other objects,
it keeps that vector. -/
theorem C124_array {s s' : Shared} {i : ℕ} {v : List ℝ} {r : Option Calibrated}
    (h : (ShareCmd.setArray i v).run s = (.ok r, s')) {cs : List ShareCmd} (hcs : ∀ c ∈ cs, c.on ≠ some i) :
    (s'.after cs).read i = some v := by
  obtain ⟨o, ho, ht, hv⟩ := setArray_ok h
  rw [read_free (after_free ho hcs) ht, hv]

/-- C124: the same holds for an object just constructed. -/
theorem C124_created (s : Shared) (p : Problem) (ln : Bool) {cs : List ShareCmd} (hcs : ∀ c ∈ cs, c.on ≠ some s.objs.length) :
    (((ShareCmd.create p ln).run s).2.after cs).read s.objs.length = some (p.ops.paramVec ln) :=
  read_free (o := ⟨p, ln, none⟩) (after_free (by simp [ShareCmd.run]) hcs) rfl

/-- C124: and it does not affect anybody: its fits change no tensor and no other object. -/
theorem C124_own_fit {s s' : Shared} {i : ℕ} {v : List ℝ} {r : Option Calibrated}
    (h : (ShareCmd.setArray i v).run s = (.ok r, s')) {cs : List ShareCmd}
    (hcs : ∀ c ∈ cs, ∃ cfg opt, c = .calibrate i cfg opt) :
    (s'.after cs).tensors = s'.tensors ∧ ∀ j, j ≠ i → (s'.after cs).read j = s'.read j := by
  obtain ⟨o, ho, ht, -⟩ := setArray_ok h
  clear h
  induction cs generalizing s' o with
  | nil => exact ⟨rfl, fun _ _ => rfl⟩
  | cons c cs ih =>
    obtain ⟨cfg, opt, rfl⟩ := hcs c (by simp)
    have h1 : ((ShareCmd.calibrate i cfg opt).run s').2 =
        ⟨s'.tensors, s'.objs.set i ⟨((s'.current o).calibrate (cfg.forObj o) opt).2, o.learnNu, o.tied⟩⟩ := by
      simp [ShareCmd.run, ho, ht]
    have hlt : i < s'.objs.length := by
      by_contra hh
      rw [List.getElem?_eq_none (not_lt.mp hh)] at ho; cases ho
    rw [after_cons, h1]
    have := ih (fun d hd => hcs d (by simp [hd])) (s' := ⟨s'.tensors, s'.objs.set i
      ⟨((s'.current o).calibrate (cfg.forObj o) opt).2, o.learnNu, o.tied⟩⟩)
      ⟨((s'.current o).calibrate (cfg.forObj o) opt).2, o.learnNu, o.tied⟩ (by simp [List.getElem?_set, hlt]) ht
    refine ⟨this.1, fun j hj => (this.2 j hj).trans ?_⟩
    simp only [Shared.read, List.getElem?_set_ne hj.symm]
    cases s'.objs[j]? with
    | none => rfl
    | some oj => simp only [Option.map_some, Shared.current]

/-- C124: a vector of the wrong length is refused with `ValueError` and nothing changes, ties included. -/
theorem C124_refused {s : Shared} {i : ℕ} {u v : List ℝ} (hu : s.read i = some u) (hl : v.length ≠ u.length) :
    (ShareCmd.setArray i v).run s = (.error .valueError, s) ∧
      ∀ t, s.tensors[t]? = some v → (ShareCmd.setTensor i t).run s = (.error .valueError, s) := by
  simp only [Shared.read, Option.map_eq_some_iff] at hu
  obtain ⟨o, ho, hu⟩ := hu
  have := C37_wrong_length o.learnNu (s.current o).ops v (by rw [hu]; exact hl)
  refine ⟨by simp only [ShareCmd.run, ho, this], fun t ht => by simp only [ShareCmd.run, ho, ht, this]⟩

/-- Two objects made from any fitting problem, a tensor of zeros, both objects set to it. -/
theorem share_example (p : Problem) (ln : Bool) :
    ∃ s s1 s2, ShareReach s ∧ (ShareCmd.setTensor 0 0).run s = (.ok none, s1) ∧
      (ShareCmd.setTensor 1 0).run s1 = (.ok none, s2) ∧ s.read 0 = some (p.ops.paramVec ln) ∧
      s2.tensors = [List.replicate (p.ops.paramVec ln).length 0] := by
  obtain ⟨v, hv⟩ : ∃ v : List ℝ, v = List.replicate (p.ops.paramVec ln).length 0 := ⟨_, rfl⟩
  have hl : v.length = (p.ops.paramVec ln).length := by simp [hv]
  have h1 : (p.ops.setParameters ln v) = (.ok (), p.ops.setVec ln v) := by
    unfold OPS.setParameters; rw [if_neg (by simpa using hl)]
  refine ⟨⟨[v], [⟨p, ln, none⟩, ⟨p, ln, none⟩]⟩, ⟨[v], [⟨{ p with ops := p.ops.setVec ln v }, ln, some 0⟩, ⟨p, ln, none⟩]⟩,
    ⟨[v], [⟨{ p with ops := p.ops.setVec ln v }, ln, some 0⟩, ⟨{ p with ops := p.ops.setVec ln v }, ln, some 0⟩]⟩,
    ⟨[.create p ln, .create p ln, .tensor v], ⟨trivial, trivial, trivial, trivial⟩, rfl⟩, ?_, ?_, rfl, by rw [hv]⟩
  · simp [ShareCmd.run, Shared.current, h1]
  · simp [ShareCmd.run, Shared.current, h1]

/-- The claims have a case: with any problem, editing the tensor moves both objects. -/
example (p : Problem) (ln : Bool) : ∃ s : Shared, ShareReach s ∧ s.read 0 = some (List.replicate (p.ops.paramVec ln).length 1) := by
  obtain ⟨s, s1, s2, ⟨cs, hcs, rfl⟩, h1, -, hr, ht⟩ := share_example p ln
  refine ⟨((ShareCmd.write 0 (List.replicate (p.ops.paramVec ln).length 1)).run s1).2, ⟨cs ++ [.setTensor 0 0, .write 0 (List.replicate (p.ops.paramVec ln).length 1)], ?_, ?_⟩, ?_⟩
  · have : ∀ (cs : List ShareCmd) (s : Shared) (ds : List ShareCmd), ShareRun s cs → ShareRun (s.after cs) ds → ShareRun s (cs ++ ds) := by
      intro cs
      induction cs with
      | nil => intro s ds _ h; exact h
      | cons c cs ih => intro s ds h h'; exact ⟨h.1, ih _ _ h.2 h'⟩
    exact this _ _ _ hcs ⟨trivial, trivial, trivial⟩
  · simp only [Shared.after, List.foldl_append, List.foldl_cons, List.foldl_nil] at h1 ⊢
    rw [h1]
  · obtain ⟨v, hv, hr1⟩ := C124_tied ⟨cs, hcs, rfl⟩ h1 (cs := []) trivial (by simp)
    obtain ⟨w, hw, hwl⟩ : ∃ w : List ℝ, s1.tensors[0]? = some w ∧ w.length = (p.ops.paramVec ln).length := by
      refine ⟨v, hv, ?_⟩
      by_contra hne
      have ht0 : (Shared.empty.after cs).tensors[0]? = some v := by
        have := congrArg (fun x => x.2.tensors) h1
        simp only [ShareCmd.run] at this
        revert this
        split
        · split
          · intro h; rw [h]; exact hv
          · intro h; dsimp only at h; rw [h]; exact hv
        · intro h; rw [h]; exact hv
      have := (C124_refused hr hne).2 0 ht0
      rw [this] at h1; cases h1
    exact C124_edit ⟨cs, hcs, rfl⟩ h1 (cs := []) trivial (by simp) hw (by simp [hwl])

/-- A fit that is possible in such a state. -/
example (p : Problem) (ln : Bool) (cfg : TrainCfg) : ∃ s : Shared, ShareReach s ∧ ∃ opt, ShareLegal s (.calibrate 0 cfg opt) ∧
    s.read 0 = some (p.ops.paramVec ln) := by
  obtain ⟨s, s1, s2, hs, -, -, hr, -⟩ := share_example p ln
  exact ⟨s, hs, fun _ => ⟨[p.ops.paramVec ln], p.ops.paramVec ln⟩, fun v hv e => by rw [hr] at hv; cases hv; simp, hr⟩

end
end Verif
