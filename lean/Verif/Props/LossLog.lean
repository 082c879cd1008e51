import Verif.Model.LossLog
import Verif.Props.AfterFit

/-!
# C114, C115: the TensorBoard log of a fit, the figure made from it, and the summary of the losses
-/

namespace Verif
open Fl

noncomputable section

/-! ### Logging does not change the evaluation -/

theorem mseLog_fst (i : ℕ) (y t : List (List Fl)) : (mseLog i y t).1 = mseTerm y t := by
  unfold mseLog mseTerm
  split_ifs <;> rfl

theorem cohTermLog_fst (p : LossParams) (i : ℕ) (a : EvalArgs) : (cohTermLog p i a).1 = cohTerm p a := by
  unfold cohTermLog cohTerm
  cases a.coherence with
  | none => rfl
  | some c =>
    simp only
    by_cases hg : 0 < p.gammaCoherence
    · rw [if_pos hg, if_pos hg]
      unfold coherenceLog coherenceLoss
      split_ifs <;> rfl
    · rw [if_neg hg, if_neg hg]

theorem pen1TermLog_fst (p : LossParams) (k1s : List ℝ) (z : ℝ) (i : ℕ) (a : EvalArgs) :
    (pen1TermLog p k1s z i a).1 = pen1Term p k1s z a := by
  unfold pen1TermLog pen1Term pen1Log pen1
  by_cases hg : 0 < p.alphaPen1
  · rw [if_pos hg, if_pos hg]; split_ifs <;> rfl
  · rw [if_neg hg, if_neg hg]

theorem pen2TermLog_fst (p : LossParams) (k1s : List ℝ) (z : ℝ) (i : ℕ) (a : EvalArgs) :
    (pen2TermLog p k1s z i a).1 = pen2Term p k1s z a := by
  unfold pen2TermLog pen2Term pen2Log pen2
  by_cases hg : 0 < p.alphaPen2
  · rw [if_pos hg, if_pos hg]; split_ifs <;> rfl
  · rw [if_neg hg, if_neg hg]

theorem regTermLog_fst (p : LossParams) (i : ℕ) (a : EvalArgs) : (regTermLog p i a).1 = regTerm p a := by
  unfold regTermLog regTerm regLog regularization
  cases a.theta with
  | none => rfl
  | scalar =>
    simp only
    by_cases hg : 0 < p.betaReg
    · rw [if_pos hg, if_pos hg]
    · rw [if_neg hg, if_neg hg]
  | vec θ =>
    simp only
    by_cases hg : 0 < p.betaReg
    · rw [if_pos hg, if_pos hg]
    · rw [if_neg hg, if_neg hg]

theorem lossEvalLog_fst (p : LossParams) (k1s : List ℝ) (z : ℝ) (i : ℕ) (a : EvalArgs) (s : LossState) :
    (lossEvalLog p k1s z i a s).1 = lossEval p k1s z a s := by
  unfold lossEvalLog lossEval evalTerms
  rw [← mseLog_fst i, ← cohTermLog_fst p i, ← pen1TermLog_fst p k1s z i, ← pen2TermLog_fst p k1s z i,
    ← regTermLog_fst p i]
  rcases mseLog i a.y a.yData with ⟨e | m, l1⟩
  · rfl
  rcases cohTermLog p i a with ⟨e | c, l2⟩
  · rfl
  rcases pen1TermLog p k1s z i a with ⟨e | q1, l3⟩
  · rfl
  rcases pen2TermLog p k1s z i a with ⟨e | q2, l4⟩
  · rfl
  rcases regTermLog p i a with ⟨e | r, l5⟩
  · rfl
  · rfl

/-- **C114.**  Writing scalars to the log never changes the result of an evaluation, whether it returns or raises, or the object. -/
theorem C114_harmless (p : LossParams) (k1s : List ℝ) (z : ℝ) (i : ℕ) (a : EvalArgs) (s : LossState) :
    (lossEvalLog p k1s z i a s).1 = lossEval p k1s z a s := lossEvalLog_fst p k1s z i a s

/-! ### Events of one term -/

theorem raiseIfNan_eq {x v : Fl} (h : raiseIfNan x = .ok v) : x = v := by
  unfold raiseIfNan at h
  split_ifs at h
  simpa using h

theorem mseLog_snd {i : ℕ} {y t : List (List Fl)} {v : Fl} (h : (mseLog i y t).1 = .ok v) :
    (mseLog i y t).2 = [⟨"MSE Loss", v, i⟩] := by
  unfold mseLog at h ⊢
  split_ifs at h ⊢
  rw [raiseIfNan_eq h]

open Classical in
/-- The coherence events of a successful evaluation; `Q` holds the unweighted components. -/
theorem cohTermLog_snd {p : LossParams} {i : ℕ} {a : EvalArgs} {v : Fl} (h : (cohTermLog p i a).1 = .ok v) :
    ∃ u w x : Fl, (cohTermLog p i a).2 = if 0 < p.gammaCoherence ∧ a.coherence.isSome then
      [⟨"Coherence Loss/Total", v, i⟩, ⟨"Coherence Loss/U-component", u, i⟩, ⟨"Coherence Loss/V-component", w, i⟩,
        ⟨"Coherence Loss/W-component", x, i⟩] else [] := by
  unfold cohTermLog at h ⊢
  cases hc : a.coherence with
  | none => exact ⟨0, 0, 0, by simp⟩
  | some c =>
    rw [hc] at h
    simp only at h ⊢
    by_cases hg : 0 < p.gammaCoherence
    · rw [if_pos hg] at h ⊢
      unfold coherenceLog at h ⊢
      by_cases hs : sameShape c.modelU c.dataU ∧ sameShape c.modelV c.dataV ∧ sameShape c.modelW c.dataW
      · rw [if_pos hs] at h ⊢
        refine ⟨msd c.modelU c.dataU, msd c.modelV c.dataV, msd c.modelW c.dataW, ?_⟩
        rw [if_pos ⟨hg, rfl⟩, ← raiseIfNan_eq h]
      · rw [if_neg hs] at h; simp at h
    · exact ⟨0, 0, 0, by simp [hg]⟩

open Classical in
theorem pen1TermLog_snd {p : LossParams} {k1s : List ℝ} {z : ℝ} {i : ℕ} {a : EvalArgs} {v : Fl}
    (h : (pen1TermLog p k1s z i a).1 = .ok v) :
    (pen1TermLog p k1s z i a).2 = if 0 < p.alphaPen1 then [⟨"1st Order Penalty", v, i⟩] else [] := by
  unfold pen1TermLog at h ⊢
  by_cases hg : 0 < p.alphaPen1
  · rw [if_pos hg] at h ⊢
    rw [if_pos hg]
    unfold pen1Log at h ⊢
    split_ifs at h ⊢
    rw [raiseIfNan_eq h]
  · rw [if_neg hg, if_neg hg]

open Classical in
theorem pen2TermLog_snd {p : LossParams} {k1s : List ℝ} {z : ℝ} {i : ℕ} {a : EvalArgs} {v : Fl}
    (h : (pen2TermLog p k1s z i a).1 = .ok v) :
    (pen2TermLog p k1s z i a).2 = if 0 < p.alphaPen2 then [⟨"2nd Order Penalty", v, i⟩] else [] := by
  unfold pen2TermLog at h ⊢
  by_cases hg : 0 < p.alphaPen2
  · rw [if_pos hg] at h ⊢
    rw [if_pos hg]
    unfold pen2Log at h ⊢
    split_ifs at h ⊢
    rw [raiseIfNan_eq h]
  · rw [if_neg hg, if_neg hg]

/-- Network parameters were passed. -/
def EvalArgs.HasTheta (a : EvalArgs) : Prop := a.theta ≠ .none

open Classical in
theorem regTermLog_snd {p : LossParams} {i : ℕ} {a : EvalArgs} {v : Fl} (h : (regTermLog p i a).1 = .ok v) :
    (regTermLog p i a).2 = if 0 < p.betaReg ∧ a.HasTheta then [⟨"Regularization", v, i⟩] else [] := by
  unfold regTermLog at h ⊢
  unfold EvalArgs.HasTheta
  cases ht : a.theta with
  | none => simp
  | scalar =>
    rw [ht] at h
    simp only at h ⊢
    by_cases hg : 0 < p.betaReg
    · rw [if_pos hg] at h
      simp [regLog] at h
    · rw [if_neg hg]; simp [hg]
  | vec θ =>
    rw [ht] at h
    simp only at h ⊢
    by_cases hg : 0 < p.betaReg
    · rw [if_pos hg] at h ⊢
      simp only [regLog] at h ⊢
      rw [raiseIfNan_eq h]
      simp [hg]
    · rw [if_neg hg]; simp [hg]

open Classical in
/-- The log of a successful evaluation. -/
theorem lossEvalLog_snd {p : LossParams} {k1s : List ℝ} {z : ℝ} (i : ℕ) {a : EvalArgs} (s : LossState) {v : Five Fl}
    (h : evalTerms p k1s z a = .ok v) :
    ∃ u w x : Fl, (lossEvalLog p k1s z i a s).2 = [⟨"MSE Loss", v.mse, i⟩] ++
      (if 0 < p.gammaCoherence ∧ a.coherence.isSome then
        [⟨"Coherence Loss/Total", v.coherence, i⟩, ⟨"Coherence Loss/U-component", u, i⟩,
          ⟨"Coherence Loss/V-component", w, i⟩, ⟨"Coherence Loss/W-component", x, i⟩] else []) ++
      (if 0 < p.alphaPen1 then [⟨"1st Order Penalty", v.pen1, i⟩] else []) ++
      (if 0 < p.alphaPen2 then [⟨"2nd Order Penalty", v.pen2, i⟩] else []) ++
      (if 0 < p.betaReg ∧ a.HasTheta then [⟨"Regularization", v.regularization, i⟩] else []) ++
      ratioLog i (lossEval p k1s z a s).2.avg := by
  obtain ⟨h1, h2, h3, h4, h5⟩ := evalTerms_ok.1 h
  rw [← mseLog_fst i] at h1
  rw [← cohTermLog_fst p i] at h2
  rw [← pen1TermLog_fst p k1s z i] at h3
  rw [← pen2TermLog_fst p k1s z i] at h4
  rw [← regTermLog_fst p i] at h5
  obtain ⟨u, w, x, e2⟩ := cohTermLog_snd h2
  have e1 := mseLog_snd h1
  have e3 := pen1TermLog_snd h3
  have e4 := pen2TermLog_snd h4
  have e5 := regTermLog_snd h5
  refine ⟨u, w, x, ?_⟩
  rw [← e1, ← e2, ← e3, ← e4, ← e5, ← lossEvalLog_fst p k1s z i a s]
  unfold lossEvalLog
  rcases hm : mseLog i a.y a.yData with ⟨e | m, l1⟩
  · rw [hm] at h1; simp at h1
  rcases hc : cohTermLog p i a with ⟨e | c, l2⟩
  · rw [hc] at h2; simp at h2
  rcases hp : pen1TermLog p k1s z i a with ⟨e | q1, l3⟩
  · rw [hp] at h3; simp at h3
  rcases hq : pen2TermLog p k1s z i a with ⟨e | q2, l4⟩
  · rw [hq] at h4; simp at h4
  rcases hr : regTermLog p i a with ⟨e | r, l5⟩
  · rw [hr] at h5; simp at h5
  rfl

/-! ### Sequences of evaluations -/

/-- The log of a sequence of evaluations, each with its step. -/
def runLog (p : LossParams) (k1s : List ℝ) (z : ℝ) : List (ℕ × EvalArgs) → LossState → List LogEvent
  | [], _ => []
  | (i, a) :: calls, s => (lossEvalLog p k1s z i a s).2 ++ runLog p k1s z calls (lossEval p k1s z a s).2

theorem runLog_append (p : LossParams) (k1s : List ℝ) (z : ℝ) (c d : List (ℕ × EvalArgs)) (s : LossState) :
    runLog p k1s z (c ++ d) s = runLog p k1s z c s ++ runLog p k1s z d (runEvals p k1s z (c.map Prod.snd) s) := by
  induction c generalizing s with
  | nil => rfl
  | cons x c ih =>
    obtain ⟨i, a⟩ := x
    simp only [List.cons_append, runLog, ih, List.append_assoc, List.map_cons]
    rfl

/-- Every evaluation of a sequence returned a value: as many recorded totals as calls. -/
def AllReturned (p : LossParams) (k1s : List ℝ) (z : ℝ) (calls : List EvalArgs) : Prop :=
  (returned p k1s z calls .init).length = calls.length

theorem returned_append (p : LossParams) (k1s : List ℝ) (z : ℝ) (c d : List EvalArgs) (s : LossState) :
    returned p k1s z (c ++ d) s = returned p k1s z c s ++ returned p k1s z d (runEvals p k1s z c s) := by
  induction c generalizing s with
  | nil => rfl
  | cons a c ih =>
    rw [List.cons_append, returned, returned]
    show _ = _ ++ returned p k1s z d (runEvals p k1s z c (lossEval p k1s z a s).2)
    rcases h : lossEval p k1s z a s with ⟨e | v, s'⟩
    · simp only [ih]
    · simp only [ih, List.cons_append]

theorem returned_le (p : LossParams) (k1s : List ℝ) (z : ℝ) (c : List EvalArgs) (s : LossState) :
    (returned p k1s z c s).length ≤ c.length := by
  induction c generalizing s with
  | nil => simp [returned]
  | cons a c ih =>
    rw [returned]
    rcases h : lossEval p k1s z a s with ⟨e | v, s'⟩
    · exact (ih s').trans (by simp)
    · simpa using ih s'

theorem allReturned_snoc {p : LossParams} {k1s : List ℝ} {z : ℝ} {c : List EvalArgs} {a : EvalArgs}
    (h : AllReturned p k1s z (c ++ [a])) :
    AllReturned p k1s z c ∧ ∃ v, evalTerms p k1s z a = .ok v := by
  unfold AllReturned at h ⊢
  rw [returned_append, List.length_append, List.length_append, List.length_singleton] at h
  have h1 := returned_le p k1s z c .init
  have h2 := returned_le p k1s z [a] (runEvals p k1s z c .init)
  rw [List.length_singleton] at h2
  refine ⟨by omega, ?_⟩
  have h3 : (returned p k1s z [a] (runEvals p k1s z c .init)).length = 1 := by omega
  rcases ht : evalTerms p k1s z a with e | v
  · simp [returned, lossEval, ht] at h3
  · exact ⟨v, rfl⟩

/-- Appending one successful evaluation to the histories. -/
theorem runEvals_snoc {p : LossParams} {k1s : List ℝ} {z : ℝ} {c : List EvalArgs} {a : EvalArgs} {v : Five Fl}
    (h : evalTerms p k1s z a = .ok v) (key : LossKey) :
    key.get (runEvals p k1s z (c ++ [a]) .init).hist = key.get (runEvals p k1s z c .init).hist ++ [key.get v] := by
  have e : runEvals p k1s z (c ++ [a]) .init = (lossEval p k1s z a (runEvals p k1s z c .init)).2 := by
    simp [runEvals, List.foldl_append]
  rw [e]
  unfold lossEval
  rw [h]
  cases key <;> rfl

theorem allReturned_length {p : LossParams} {k1s : List ℝ} {z : ℝ} {c : List EvalArgs} (h : AllReturned p k1s z c)
    (key : LossKey) : (key.get (runEvals p k1s z c .init).hist).length = c.length := by
  induction c using List.reverseRecOn with
  | nil => cases key <;> rfl
  | append_singleton c a ih =>
    obtain ⟨h1, v, hv⟩ := allReturned_snoc h
    rw [runEvals_snoc hv, List.length_append, ih h1]
    simp

theorem scalarsOf_append (l m : List LogEvent) (t : String) : scalarsOf (l ++ m) t = scalarsOf l t ++ scalarsOf m t := by
  simp [scalarsOf]

/-- Steps of the events of a tag. -/
def stepsOf (log : List LogEvent) (tag : String) : List ℕ := (log.filter fun e => e.tag = tag).map LogEvent.step

theorem stepsOf_append (l m : List LogEvent) (t : String) : stepsOf (l ++ m) t = stepsOf l t ++ stepsOf m t := by
  simp [stepsOf]

/-- The tag under which a term is logged. -/
def LossKey.tag : LossKey → String
  | .mse => "MSE Loss"
  | .coherence => "Coherence Loss/Total"
  | .pen1 => "1st Order Penalty"
  | .pen2 => "2nd Order Penalty"
  | .regularization => "Regularization"

/-- A term is enabled in a call: its coefficient is positive and its inputs were passed. -/
def LossKey.On (p : LossParams) (a : EvalArgs) : LossKey → Prop
  | .mse => True
  | .coherence => 0 < p.gammaCoherence ∧ a.coherence.isSome
  | .pen1 => 0 < p.alphaPen1
  | .pen2 => 0 < p.alphaPen2
  | .regularization => 0 < p.betaReg ∧ a.HasTheta

theorem ratioLog_tags (i : ℕ) (avg : Five Fl) (key : LossKey) :
    (ratioLog i avg).filter (fun e => e.tag = key.tag) = [] := by
  unfold ratioLog
  by_cases hi : 0 < i
  swap
  · rw [if_neg hi]; rfl
  rw [if_pos hi]
  simp only
  by_cases ht : Fl.lt (fin 0) (avg.mse + avg.coherence + avg.pen1 + avg.pen2 + avg.regularization)
  swap
  · rw [if_neg ht]; rfl
  rw [if_pos ht]
  cases key <;> simp only [LossKey.tag] <;> rfl

theorem filter_ite {α : Type} (c : Prop) [Decidable c] (f : α → Bool) (l : List α) :
    (if c then l else []).filter f = if c then l.filter f else [] := by
  split_ifs <;> rfl

open Classical in
/-- Events of one tag in a successful evaluation. -/
theorem lossEvalLog_tag {p : LossParams} {k1s : List ℝ} {z : ℝ} (i : ℕ) {a : EvalArgs} (s : LossState) {v : Five Fl}
    (h : evalTerms p k1s z a = .ok v) (key : LossKey) :
    (lossEvalLog p k1s z i a s).2.filter (fun e => e.tag = key.tag) =
      if key.On p a then [⟨key.tag, key.get v, i⟩] else [] := by
  obtain ⟨u, w, x, e⟩ := lossEvalLog_snd i s h
  rw [e, List.filter_append, ratioLog_tags]
  simp only [List.filter_append, filter_ite]
  cases key <;> simp [LossKey.tag, LossKey.On, LossKey.get] <;> congr

open Classical in
/-- **C114** After a sequence of evaluations that all returned, the logged series of each term consists of the recorded
history of the term at exactly those evaluations in which the term was enabled, with the steps passed to them: nothing is
logged for a term that is switched off, although the history records zeros for it. -/
theorem C114_series (p : LossParams) (k1s : List ℝ) (z : ℝ) (calls : List (ℕ × EvalArgs))
    (hok : AllReturned p k1s z (calls.map Prod.snd)) (key : LossKey) :
    scalarsOf (runLog p k1s z calls .init) key.tag =
        ((calls.zip (key.get (runEvals p k1s z (calls.map Prod.snd) .init).hist)).filter
          fun x => key.On p x.1.2).map Prod.snd ∧
      stepsOf (runLog p k1s z calls .init) key.tag = (calls.filter fun x => key.On p x.2).map Prod.fst := by
  induction calls using List.reverseRecOn with
  | nil => exact ⟨by simp [runLog, scalarsOf], by simp [runLog, stepsOf]⟩
  | append_singleton c x ih =>
    obtain ⟨i, a⟩ := x
    rw [List.map_append, List.map_singleton] at hok
    obtain ⟨h1, v, hv⟩ := allReturned_snoc hok
    obtain ⟨e1, e2⟩ := ih h1
    rw [runLog_append, List.map_append, List.map_singleton, runEvals_snoc hv, scalarsOf_append, stepsOf_append, e1, e2,
      List.zip_append (by simpa using (allReturned_length h1 key).symm), List.filter_append, List.map_append,
      List.filter_append, List.map_append]
    have e3 : runLog p k1s z [(i, a)] (runEvals p k1s z (c.map Prod.snd) .init) =
        (lossEvalLog p k1s z i a (runEvals p k1s z (c.map Prod.snd) .init)).2 := by simp [runLog]
    rw [e3]
    unfold scalarsOf stepsOf
    rw [lossEvalLog_tag i _ hv]
    constructor <;> by_cases hk : key.On p a <;> simp [hk]

/-! ### Logged shares of the terms -/

/-- The four logged shares. -/
inductive ShareKey where
  | mse | coherence | penalties | regularization

def ShareKey.tag : ShareKey → String
  | .mse => "Component_Ratios/MSE"
  | .coherence => "Component_Ratios/Coherence"
  | .penalties => "Component_Ratios/Penalties"
  | .regularization => "Component_Ratios/Regularization"

/-- Which averages a share counts. -/
def ShareKey.part (f : LossKey → ℝ) : ShareKey → ℝ
  | .mse => f .mse
  | .coherence => f .coherence
  | .penalties => f .pen1 + f .pen2
  | .regularization => f .regularization

/-- Exponential moving averages of the first `m` values of five histories. -/
def Spec.averages (L : LossKey → List ℝ) (m : ℕ) (key : LossKey) : ℝ := Spec.ema ((L key).take m)

/-- Sum of the five averages. -/
def Spec.whole (f : LossKey → ℝ) : ℝ := f .mse + f .coherence + f .pen1 + f .pen2 + f .regularization

/-- Share events in the terms of an evaluation: none. -/
theorem ratioLog_share (i : ℕ) (f : LossKey → ℝ) (k : ShareKey) {avg : Five Fl}
    (h : ∀ key : LossKey, key.get avg = fin (f key)) :
    scalarsOf (ratioLog i avg) k.tag = if 0 < i ∧ 0 < Spec.whole f then [fin (k.part f / Spec.whole f)] else [] := by
  have e1 : avg.mse = fin (f .mse) := h .mse
  have e2 : avg.coherence = fin (f .coherence) := h .coherence
  have e3 : avg.pen1 = fin (f .pen1) := h .pen1
  have e4 : avg.pen2 = fin (f .pen2) := h .pen2
  have e5 : avg.regularization = fin (f .regularization) := h .regularization
  have et : avg.mse + avg.coherence + avg.pen1 + avg.pen2 + avg.regularization = fin (Spec.whole f) := by
    rw [e1, e2, e3, e4, e5]; rfl
  unfold ratioLog
  by_cases hi : 0 < i
  swap
  · rw [if_neg hi, if_neg (fun h => hi h.1)]; rfl
  rw [if_pos hi]
  simp only
  by_cases ht : 0 < Spec.whole f
  swap
  · rw [if_neg (by rwa [et, lt_fin]), if_neg (fun h => ht h.2)]; rfl
  rw [if_pos (by rwa [et, lt_fin]), if_pos (⟨hi, ht⟩ : 0 < i ∧ 0 < Spec.whole f)]
  have hd : ∀ x : ℝ, fin x / fin (Spec.whole f) = fin (x / Spec.whole f) := fun x => fin_div_fin x ht.ne'
  rw [et, e1, e2, e3, e4, e5, fin_add_fin, hd, hd, hd, hd]
  cases k <;> rfl

open Classical in
theorem lossEvalLog_share {p : LossParams} {k1s : List ℝ} {z : ℝ} (i : ℕ) {a : EvalArgs} (s : LossState) {v : Five Fl}
    (h : evalTerms p k1s z a = .ok v) (k : ShareKey) :
    scalarsOf (lossEvalLog p k1s z i a s).2 k.tag = scalarsOf (ratioLog i (lossEval p k1s z a s).2.avg) k.tag := by
  obtain ⟨u, w, x, e⟩ := lossEvalLog_snd i s h
  rw [e, scalarsOf_append]
  have : ∀ l : List LogEvent, (∀ e ∈ l, e.tag ≠ k.tag) → scalarsOf l k.tag = [] := by
    intro l hl
    simp only [scalarsOf, List.map_eq_nil_iff, List.filter_eq_nil_iff]
    intro e he
    simpa using hl e he
  rw [this, List.nil_append]
  intro e he
  simp only [List.mem_append, List.mem_singleton] at he
  have hm : ∀ (c : Prop) [Decidable c] (l : List LogEvent), e ∈ (if c then l else []) → e ∈ l := by
    intro c _ l he
    split_ifs at he
    · exact he
    · simp at he
  rcases he with (((he | he) | he) | he) | he
  · rw [he]; cases k <;> simp [ShareKey.tag]
  · have := hm _ _ he
    simp only [List.mem_cons, List.not_mem_nil, or_false] at this
    rcases this with h | h | h | h <;> rw [h] <;> cases k <;> simp [ShareKey.tag]
  · have := hm _ _ he
    simp only [List.mem_singleton] at this
    rw [this]; cases k <;> simp [ShareKey.tag]
  · have := hm _ _ he
    simp only [List.mem_singleton] at this
    rw [this]; cases k <;> simp [ShareKey.tag]
  · have := hm _ _ he
    simp only [List.mem_singleton] at this
    rw [this]; cases k <;> simp [ShareKey.tag]

/-- **C114** Shares: in a sequence of evaluations that all returned finite terms, one value per share is logged for every
evaluation with a positive step after which the averages are not all zero; it is the exponential moving average of the
term up to and including this evaluation divided by the sum of the five averages. -/
theorem C114_shares (p : LossParams) (k1s : List ℝ) (z : ℝ) (calls : List (ℕ × EvalArgs))
    (hok : AllReturned p k1s z (calls.map Prod.snd)) (L : LossKey → List ℝ)
    (hL : ∀ key : LossKey, key.get (runEvals p k1s z (calls.map Prod.snd) .init).hist = (L key).map fin) (k : ShareKey) :
    scalarsOf (runLog p k1s z calls .init) k.tag =
      ((List.range calls.length).filter fun i =>
        0 < (calls.map Prod.fst).getD i 0 ∧ 0 < Spec.whole (Spec.averages L (i + 1))).map fun i =>
          fin (k.part (Spec.averages L (i + 1)) / Spec.whole (Spec.averages L (i + 1))) := by
  induction calls using List.reverseRecOn generalizing L with
  | nil => simp [runLog, scalarsOf]
  | append_singleton c x ih =>
    obtain ⟨i, a⟩ := x
    rw [List.map_append, List.map_singleton] at hok
    obtain ⟨h1, v, hv⟩ := allReturned_snoc hok
    have hlen : ∀ key, (L key).length = c.length + 1 := by
      intro key
      have := allReturned_length hok key
      have h2 := hL key
      rw [List.map_append, List.map_singleton] at h2
      rw [h2] at this
      simpa using this
    have hdrop : ∀ key : LossKey, key.get (runEvals p k1s z (c.map Prod.snd) .init).hist =
        ((L key).take c.length).map fin := by
      intro key
      have h2 := hL key
      rw [List.map_append, List.map_singleton, runEvals_snoc hv] at h2
      have h3 := congrArg (List.take c.length) h2
      rw [List.take_left' (by simpa using allReturned_length h1 key)] at h3
      rw [h3, List.map_take]
    have havg : ∀ m ≤ c.length, Spec.averages (fun key => (L key).take c.length) m = Spec.averages L m := by
      intro m hm
      funext key
      simp only [Spec.averages, List.take_take, Nat.min_eq_left hm]
    rw [runLog_append, scalarsOf_append, ih h1 _ hdrop]
    have e3 : runLog p k1s z [(i, a)] (runEvals p k1s z (c.map Prod.snd) .init) =
        (lossEvalLog p k1s z i a (runEvals p k1s z (c.map Prod.snd) .init)).2 := by simp [runLog]
    have e4 : (lossEval p k1s z a (runEvals p k1s z (c.map Prod.snd) .init)).2 =
        runEvals p k1s z ((c ++ [(i, a)]).map Prod.snd) .init := by
      simp [runEvals, List.foldl_append]
    rw [e3, lossEvalLog_share i _ hv k, e4, ratioLog_share i (Spec.averages L (c.length + 1)) k ?_]
    · rw [List.length_append, List.length_singleton, List.range_succ, List.filter_append, List.map_append]
      congr 1
      · have e5 : ∀ j ∈ List.range c.length, (decide (0 < (c.map Prod.fst).getD j 0 ∧
            0 < Spec.whole (Spec.averages (fun key => (L key).take c.length) (j + 1)))) =
            decide (0 < ((c ++ [(i, a)]).map Prod.fst).getD j 0 ∧ 0 < Spec.whole (Spec.averages L (j + 1))) := by
          intro j hj
          have hj := List.mem_range.1 hj
          rw [havg _ (by omega), List.map_append, List.getD_eq_getElem?_getD, List.getD_eq_getElem?_getD,
            List.getElem?_append_left (by simpa using hj)]
        rw [List.filter_congr e5]
        apply List.map_congr_left
        intro j hj
        have hj := List.mem_range.1 (List.mem_of_mem_filter hj)
        rw [havg _ (by omega)]
      · have e6 : ((c ++ [(i, a)]).map Prod.fst).getD c.length 0 = i := by
          rw [List.map_append, List.getD_eq_getElem?_getD, List.getElem?_append_right (by simp)]
          simp
        by_cases hc : 0 < i ∧ 0 < Spec.whole (Spec.averages L (c.length + 1))
        · rw [if_pos hc]
          simp [e6, hc]
        · rw [if_neg hc]
          simp only [List.filter_singleton, e6, decide_eq_true_eq, if_neg hc]
          simp [hc]
    · intro key
      rw [C34_ema p k1s z _ key (hL key) (by
        intro h
        have := hlen key
        rw [h] at this
        simp at this)]
      simp only [Spec.averages]
      rw [List.take_of_length_le (by rw [hlen key])]

/-- **C114** The shares of recorded losses are between 0 and 1 and add up to 1. -/
theorem C114_shares_bounds (p : LossParams) (k1s : List ℝ) {z : ℝ} (hz : 0 ≤ z) (calls : List EvalArgs)
    (L : LossKey → List ℝ) (hL : ∀ key : LossKey, key.get (runEvals p k1s z calls .init).hist = (L key).map fin) {m : ℕ}
    (hm : 0 < Spec.whole (Spec.averages L m)) :
    (∀ k : ShareKey, 0 ≤ k.part (Spec.averages L m) / Spec.whole (Spec.averages L m) ∧
      k.part (Spec.averages L m) / Spec.whole (Spec.averages L m) ≤ 1) ∧
    ShareKey.mse.part (Spec.averages L m) / Spec.whole (Spec.averages L m) +
      ShareKey.coherence.part (Spec.averages L m) / Spec.whole (Spec.averages L m) +
      ShareKey.penalties.part (Spec.averages L m) / Spec.whole (Spec.averages L m) +
      ShareKey.regularization.part (Spec.averages L m) / Spec.whole (Spec.averages L m) = 1 := by
  have h0 : ∀ key, 0 ≤ Spec.averages L m key := by
    intro key
    by_cases he : (L key).take m = []
    · simp [Spec.averages, he, Spec.ema]
    · refine (Spec.ema_mem_Icc he (b := ((L key).take m).sum) fun x hx => ?_).1
      have hnn : ∀ y ∈ (L key).take m, 0 ≤ y := by
        intro y hy
        have h1 : fin y ∈ key.get (runEvals p k1s z calls .init).hist := by
          rw [hL key]
          exact List.mem_map_of_mem (List.mem_of_mem_take hy)
        rcases (eval_key_ge0 p k1s hz calls key).1 _ h1 with h | ⟨w, hw, h⟩
        · simp at h
        · injection h with h; rw [h]; exact hw
      exact ⟨hnn x hx, List.single_le_sum hnn x hx⟩
  have a := h0 .mse
  have b := h0 .coherence
  have c := h0 .pen1
  have d := h0 .pen2
  have e := h0 .regularization
  have hw : Spec.whole (Spec.averages L m) = Spec.averages L m .mse + Spec.averages L m .coherence +
    Spec.averages L m .pen1 + Spec.averages L m .pen2 + Spec.averages L m .regularization := rfl
  refine ⟨fun k => ?_, ?_⟩
  · rw [div_le_one hm]
    refine ⟨div_nonneg ?_ hm.le, ?_⟩ <;> cases k <;> simp only [ShareKey.part] <;> linarith
  · rw [← add_div, ← add_div, ← add_div, div_eq_one_iff_eq hm.ne']
    simp only [ShareKey.part]
    linarith

/-! ### The log of a fit -/

/-- What `calibrate` passes to every evaluation of the closure. -/
def FitCall (cfg : TrainCfg) (a : EvalArgs) : Prop := a.HasTheta ∧ (a.coherence.isSome ↔ cfg.coh.isSome)

/-- A run of evaluations with consecutive steps from `n`, from state `s` to state `s'`. -/
structure RunOf (cfg : TrainCfg) (n : ℕ) (as : List EvalArgs) (s s' : LossState) (log : List LogEvent) : Prop where
  fit : ∀ a ∈ as, FitCall cfg a
  log : log = runLog cfg.loss cfg.k1s cfg.phys.zref ((List.range' n as.length).zip as) s
  state : s' = runEvals cfg.loss cfg.k1s cfg.phys.zref as s
  all : (returned cfg.loss cfg.k1s cfg.phys.zref as s).length = as.length

theorem RunOf.nil (cfg : TrainCfg) (n : ℕ) (s : LossState) : RunOf cfg n [] s s [] :=
  ⟨by simp, rfl, rfl, rfl⟩

theorem zip_range'_snd (n : ℕ) (as : List EvalArgs) : ((List.range' n as.length).zip as).map Prod.snd = as :=
  List.map_snd_zip (by simp)

theorem zip_range'_fst (n : ℕ) (as : List EvalArgs) :
    ((List.range' n as.length).zip as).map Prod.fst = List.range' n as.length :=
  List.map_fst_zip (by simp)

theorem RunOf.append {cfg : TrainCfg} {n : ℕ} {as bs : List EvalArgs} {s s' s'' : LossState} {l m : List LogEvent}
    (h : RunOf cfg n as s s' l) (h' : RunOf cfg (n + as.length) bs s' s'' m) :
    RunOf cfg n (as ++ bs) s s'' (l ++ m) := by
  refine ⟨?_, ?_, ?_, ?_⟩
  · intro a ha
    rcases List.mem_append.1 ha with ha | ha
    · exact h.fit a ha
    · exact h'.fit a ha
  · rw [List.length_append, ← List.range'_append_1, List.zip_append (by simp), runLog_append, zip_range'_snd, ← h.log,
      ← h.state, ← h'.log]
  · rw [h'.state, h.state]
    simp [runEvals, List.foldl_append]
  · rw [returned_append, List.length_append, List.length_append, h.all, ← h.state, h'.all]

theorem closure_run {cfg : TrainCfg} {θ : List ℝ} {st st' : TrainState} {l : Fl}
    (h : closure cfg θ st = (.ok l, st')) :
    st'.eCount = st.eCount + 1 ∧ ∃ a, RunOf cfg st.eCount [a] st.agg st'.agg (closureLog cfg θ st) := by
  unfold closure at h
  unfold closureLog
  simp only at h
  rcases hf : OPS.forward cfg.k1s (st.ops.setVec cfg.prob.learnNu θ) with ⟨e | y, ops⟩
  · rw [hf] at h; simp at h
  rw [hf] at h
  simp only at h ⊢
  rcases hc : closureCoherence cfg ops with ⟨e | coh, ops'⟩
  · rw [hc] at h; simp at h
  rw [hc] at h
  simp only at h ⊢
  have hcoh : coh.isSome ↔ cfg.coh.isSome := by
    unfold closureCoherence at hc
    cases hcfg : cfg.coh with
    | none => rw [hcfg] at hc; simp only [Prod.mk.injEq, Except.ok.injEq] at hc; rw [← hc.1]; simp
    | some c =>
      rw [hcfg] at hc
      simp only at hc
      split at hc
      · simp at hc
      · simp only [Prod.mk.injEq, Except.ok.injEq] at hc; rw [← hc.1]; simp
  have hth : genTheta cfg ops' ≠ .none := by
    unfold genTheta
    split <;> simp
  generalize ha : (⟨y.take cfg.prob.nc.toNat, cfg.target, genTheta cfg ops', coh⟩ : EvalArgs) = a at h ⊢
  rcases hl : lossEval cfg.loss cfg.k1s cfg.phys.zref a st.agg with ⟨e | v, agg⟩
  · rw [hl] at h; simp at h
  rw [hl] at h
  simp only [Prod.mk.injEq, Except.ok.injEq] at h
  rw [← h.2]
  refine ⟨rfl, a, ?_, ?_, ?_, ?_⟩
  · intro b hb
    rw [List.mem_singleton] at hb
    subst hb
    rw [← ha]
    exact ⟨hth, hcoh⟩
  · simp [runLog, List.range']
  · simp [runEvals, hl]
  · simp [returned, hl]

theorem closures_run {cfg : TrainCfg} {θs : List (List ℝ)} {st st' : TrainState}
    (h : closures cfg θs st = (.ok (), st')) :
    ∃ as, as.length = θs.length ∧ st'.eCount = st.eCount + as.length ∧
      RunOf cfg st.eCount as st.agg st'.agg (closuresLog cfg θs st) := by
  induction θs generalizing st with
  | nil =>
    simp only [closures, Prod.mk.injEq, true_and] at h
    subst h
    exact ⟨[], rfl, rfl, RunOf.nil _ _ _⟩
  | cons θ θs ih =>
    rw [closures] at h
    rcases hc : closure cfg θ st with ⟨e | l, st1⟩
    · rw [hc] at h; simp at h
    rw [hc] at h
    obtain ⟨e1, a, ha⟩ := closure_run hc
    obtain ⟨as, e0, e2, has⟩ := ih h
    refine ⟨[a] ++ as, by simp [e0], by rw [e2, e1]; simp; omega, ?_⟩
    rw [closuresLog, hc]
    exact ha.append (by simpa [e1] using has)

theorem runEpoch_closures {cfg : TrainCfg} {e : ℕ} {o : OptStep} {st st' : TrainState} {b : Bool}
    (h : runEpoch cfg e o st = (.ok b, st')) :
    ∃ st1, closures cfg o.queries st = (.ok (), st1) ∧ st'.agg = st1.agg ∧ st'.eCount = st1.eCount := by
  unfold runEpoch at h
  rcases hc : closures cfg o.queries st with ⟨er | u, st1⟩
  · rw [hc] at h; simp at h
  refine ⟨st1, rfl, ?_⟩
  rw [hc] at h
  simp only at h
  by_cases h1 : cfg.prob.learnable = true
  swap
  · rw [if_pos h1] at h; simp at h
  rw [if_neg (not_not.2 h1)] at h
  by_cases h2 : st1.loss.IsFin
  swap
  · rw [if_pos h2] at h; simp at h
  rw [if_neg (not_not.2 h2)] at h
  by_cases h3 : Fl.lt st1.loss (fin cfg.prob.tol)
  · rw [if_pos h3] at h
    simp only [Prod.mk.injEq, Except.ok.injEq] at h
    rw [← h.2]; exact ⟨rfl, rfl⟩
  rw [if_neg h3] at h
  by_cases h4 : e % 50 = 0
  swap
  · rw [if_neg h4] at h
    simp only [Prod.mk.injEq, Except.ok.injEq] at h
    rw [← h.2]; exact ⟨rfl, rfl⟩
  rw [if_pos h4] at h
  split at h
  · simp at h
  · split at h <;>
    · simp only [Prod.mk.injEq, Except.ok.injEq] at h
      rw [← h.2]; exact ⟨rfl, rfl⟩

theorem epochs_run {cfg : TrainCfg} {opt : ℕ → OptStep} {n e : ℕ} {st st' : TrainState}
    (h : runEpochs cfg opt e n st = (.ok (), st')) :
    ∃ as, st'.eCount = st.eCount + as.length ∧ RunOf cfg st.eCount as st.agg st'.agg (epochsLog cfg opt e n st) := by
  induction n generalizing e st with
  | zero =>
    simp only [runEpochs, Prod.mk.injEq, true_and] at h
    subst h
    exact ⟨[], rfl, RunOf.nil _ _ _⟩
  | succ n ih =>
    rw [runEpochs] at h
    rw [epochsLog]
    rcases hr : runEpoch cfg e (opt e) st with ⟨er | b, st1⟩
    · rw [hr] at h; simp at h
    rw [hr] at h
    obtain ⟨st2, hc, e1, e2⟩ := runEpoch_closures hr
    obtain ⟨as, -, e3, has⟩ := closures_run hc
    cases b with
    | true =>
      simp only [Prod.mk.injEq, true_and] at h ⊢
      subst h
      exact ⟨as, by rw [e2, e3], by rw [e1]; simpa using has⟩
    | false =>
      simp only at h ⊢
      obtain ⟨bs, e4, hbs⟩ := ih h
      refine ⟨as ++ bs, by rw [e4, e2, e3, List.length_append]; omega, ?_⟩
      rw [e2, e3, e1] at hbs
      exact has.append hbs

/-- What `calibrate` passes to the initial evaluation. -/
structure EvalArgs.InitialCall (cfg : TrainCfg) (s : OPS) (a : EvalArgs) : Prop where
  theta : a.HasTheta
  coherence : a.coherence = none
  y : ∃ y, (OPS.forward cfg.k1s s).1 = .ok y ∧ a.y = y.take cfg.prob.nc.toNat
  target : a.yData = cfg.target

theorem forward_after_coherence (phys : PhysCfg) (f r k1s : List ℝ) (s : OPS) :
    (OPS.forward k1s (computeModelCoherence phys f r s).2).1 = (OPS.forward k1s s).1 := by
  classical
  have hcs := compute_state phys f r s
  have hlog : (computeModelCoherence phys f r s).2.params = s.params := by
    have h3 := coherence_same ((f.filter fun f => decide (1e-6 < f)).map fun f => phys.factor * f / phys.Uref) r s
    have h4 := (params_congr h3.1 h3.2.1.symm h3.2.2.1.symm h3.2.2.2.1.symm).symm
    unfold computeModelCoherence
    simp only
    split <;> rename_i heq <;> rw [heq] at h4 <;> exact h4
  rw [forward_eq, forward_eq, hlog, hcs.1.grid]

/-- The evaluations of a fit that returned: an initial one at step 0 without coherence data, then those of the closure at
steps 0, 1, 2, ... -/
theorem calibrate_run {cfg : TrainCfg} {opt : ℕ → OptStep} {s : OPS} {r : Calibrated} {st : TrainState}
    (h : calibrate cfg opt s = (.ok r, st)) :
    ∃ a0 as, a0.InitialCall cfg s ∧ (∀ a ∈ as, FitCall cfg a) ∧ st.eCount = as.length ∧
      AllReturned cfg.loss cfg.k1s cfg.phys.zref (a0 :: as) ∧
      st.agg = runEvals cfg.loss cfg.k1s cfg.phys.zref (a0 :: as) .init ∧
      calibrateLog cfg opt s = runLog cfg.loss cfg.k1s cfg.phys.zref ((0, a0) :: (List.range' 0 as.length).zip as) .init := by
  unfold calibrate at h
  rcases hs : calibrateStart cfg s with ⟨e | u, st0⟩
  · rw [hs] at h; simp at h
  rw [hs] at h
  simp only at h
  rcases hr : runEpochs cfg opt 1 cfg.prob.nepochs st0 with ⟨e | u, st1⟩
  · rw [hr] at h; simp at h
  rw [hr] at h
  simp only [Prod.mk.injEq, Except.ok.injEq] at h
  rw [← h.2]
  obtain ⟨-, -, ec⟩ := calibrateStart_ghost hs
  obtain ⟨as, e1, has⟩ := epochs_run hr
  rw [ec] at e1 has
  have hlog : calibrateLog cfg opt s = startLog cfg s ++ epochsLog cfg opt 1 cfg.prob.nepochs st0 := by
    unfold calibrateLog; rw [hs]
  have key : ∃ a0 : EvalArgs, a0.InitialCall cfg s ∧
      startLog cfg s = (lossEvalLog cfg.loss cfg.k1s cfg.phys.zref 0 a0 .init).2 ∧
      st0.agg = (lossEval cfg.loss cfg.k1s cfg.phys.zref a0 .init).2 ∧
      ∃ v, (lossEval cfg.loss cfg.k1s cfg.phys.zref a0 .init).1 = .ok v := by
    unfold calibrateStart at hs
    unfold startLog
    have hth : ∀ ops, genTheta cfg ops ≠ .none := by
      intro ops
      unfold genTheta
      split <;> simp
    cases hcoh : cfg.coh with
    | none =>
      simp only [hcoh] at hs ⊢
      split at hs
      · simp at hs
      · rename_i y ops1 hf
        simp only [hf]
        refine ⟨⟨y.take cfg.prob.nc.toNat, cfg.target, genTheta cfg ops1, none⟩, ⟨hth _, rfl, ⟨y, ?_, rfl⟩, rfl⟩, rfl, ?_⟩
        · rw [hf]
        split at hs
        · simp at hs
        · rename_i l agg hl
          simp only [Prod.mk.injEq, true_and] at hs
          rw [← hs, hl]
          exact ⟨rfl, l, rfl⟩
    | some c =>
      simp only [hcoh] at hs ⊢
      rcases hm : computeModelCoherence cfg.phys c.freqs c.seps s with ⟨e | m, ops0⟩
      · rw [hm] at hs; simp at hs
      simp only [hm] at hs ⊢
      split at hs
      · simp at hs
      · rename_i y ops1 hf
        simp only [hf]
        refine ⟨⟨y.take cfg.prob.nc.toNat, cfg.target, genTheta cfg ops1, none⟩, ⟨hth _, rfl, ⟨y, ?_, rfl⟩, rfl⟩, rfl, ?_⟩
        · have h9 := forward_after_coherence cfg.phys c.freqs c.seps cfg.k1s s
          rw [hm, hf] at h9
          exact h9.symm
        split at hs
        · simp at hs
        · rename_i l agg hl
          simp only [Prod.mk.injEq, true_and] at hs
          rw [← hs, hl]
          exact ⟨rfl, l, rfl⟩
  obtain ⟨a0, h1, h3, h4, v, h5⟩ := key
  have e5 : lossEval cfg.loss cfg.k1s cfg.phys.zref a0 .init = (.ok v, st0.agg) := Prod.ext h5 h4.symm
  refine ⟨a0, as, h1, has.fit, by rw [e1]; simp, ?_, ?_, ?_⟩
  · unfold AllReturned
    rw [returned, e5]
    simp only [List.length_cons, has.all]
  · rw [has.state]
    show _ = runEvals _ _ _ as (lossEval _ _ _ a0 .init).2
    rw [e5]
  · rw [hlog, runLog, e5, ← has.log, h3]

open Classical in
/-- **C114** The log of a fit that returned: the misfit series is the recorded history, its steps are 0, 0, 1, 2, ... (the
initial evaluation and the first one of the closure share step 0); so are the series of the enabled penalties and of the
regularisation; the coherence series lacks the initial evaluation. -/
theorem C114_fit (cfg : TrainCfg) (opt : ℕ → OptStep) (s : OPS) {r : Calibrated} {st : TrainState}
    (h : calibrate cfg opt s = (.ok r, st)) :
    st.agg.hist.mse.length = st.eCount + 1 ∧
    scalarsOf (calibrateLog cfg opt s) "MSE Loss" = st.agg.hist.mse ∧
    stepsOf (calibrateLog cfg opt s) "MSE Loss" = 0 :: List.range st.eCount ∧
    (scalarsOf (calibrateLog cfg opt s) "1st Order Penalty" = if 0 < cfg.loss.alphaPen1 then st.agg.hist.pen1 else []) ∧
    (scalarsOf (calibrateLog cfg opt s) "2nd Order Penalty" = if 0 < cfg.loss.alphaPen2 then st.agg.hist.pen2 else []) ∧
    (scalarsOf (calibrateLog cfg opt s) "Regularization" =
      if 0 < cfg.loss.betaReg then st.agg.hist.regularization else []) ∧
    (scalarsOf (calibrateLog cfg opt s) "Coherence Loss/Total" =
      if 0 < cfg.loss.gammaCoherence ∧ cfg.coh.isSome then st.agg.hist.coherence.drop 1 else []) ∧
    (stepsOf (calibrateLog cfg opt s) "Coherence Loss/Total" =
      if 0 < cfg.loss.gammaCoherence ∧ cfg.coh.isSome then List.range st.eCount else []) := by
  obtain ⟨a0, as, ⟨h1, h2, -, -⟩, h3, h4, h5, h6, h7⟩ := calibrate_run h
  set calls : List (ℕ × EvalArgs) := (0, a0) :: (List.range' 0 as.length).zip as with hcalls
  have hsnd : calls.map Prod.snd = a0 :: as := by rw [hcalls, List.map_cons, zip_range'_snd]
  have hfst : calls.map Prod.fst = 0 :: List.range as.length := by
    rw [hcalls, List.map_cons, zip_range'_fst, List.range_eq_range']
  have hser := fun key => C114_series cfg.loss cfg.k1s cfg.phys.zref calls (by rw [hsnd]; exact h5) key
  have hlen := fun key => allReturned_length h5 key
  have hclen : calls.length = as.length + 1 := by simp [hcalls]
  rw [hsnd, ← h6] at hser
  rw [← h6] at hlen
  -- a term enabled in all calls, and one enabled in none
  have all : ∀ (key : LossKey), (∀ x ∈ calls, key.On cfg.loss x.2) →
      scalarsOf (calibrateLog cfg opt s) key.tag = key.get st.agg.hist ∧
      stepsOf (calibrateLog cfg opt s) key.tag = 0 :: List.range as.length := by
    intro key hk
    rw [h7]
    refine ⟨(hser key).1.trans ?_, (hser key).2.trans ?_⟩
    · rw [List.filter_eq_self.2, List.map_snd_zip (by rw [hlen, hclen]; simp)]
      intro x hx
      simpa using hk x.1 (List.of_mem_zip hx).1
    · rw [List.filter_eq_self.2, hfst]
      intro x hx
      simpa using hk x hx
  have none : ∀ (key : LossKey), (∀ x ∈ calls, ¬ key.On cfg.loss x.2) →
      scalarsOf (calibrateLog cfg opt s) key.tag = [] ∧ stepsOf (calibrateLog cfg opt s) key.tag = [] := by
    intro key hk
    rw [h7]
    refine ⟨(hser key).1.trans ?_, (hser key).2.trans ?_⟩
    · rw [List.filter_eq_nil_iff.2, List.map_nil]
      intro x hx
      simpa using hk x.1 (List.of_mem_zip hx).1
    · rw [List.filter_eq_nil_iff.2, List.map_nil]
      intro x hx
      simpa using hk x hx
  have hmem : ∀ x ∈ calls, x.2 ∈ a0 :: as := by
    intro x hx
    rw [← hsnd]
    exact List.mem_map_of_mem hx
  have hth : ∀ x ∈ calls, x.2.HasTheta := by
    intro x hx
    rcases List.mem_cons.1 (hmem x hx) with h | h
    · rw [h]; exact h1
    · exact (h3 _ h).1
  have hm := all .mse fun _ _ => trivial
  refine ⟨(hlen .mse).trans (by rw [h4]; simp), hm.1, by rw [h4]; exact hm.2, ?_, ?_, ?_, ?_⟩
  · by_cases hc : 0 < cfg.loss.alphaPen1
    · rw [if_pos hc]; exact (all .pen1 fun _ _ => hc).1
    · rw [if_neg hc]; exact (none .pen1 fun _ _ => hc).1
  · by_cases hc : 0 < cfg.loss.alphaPen2
    · rw [if_pos hc]; exact (all .pen2 fun _ _ => hc).1
    · rw [if_neg hc]; exact (none .pen2 fun _ _ => hc).1
  · by_cases hc : 0 < cfg.loss.betaReg
    · rw [if_pos hc]; exact (all .regularization fun x hx => ⟨hc, hth x hx⟩).1
    · rw [if_neg hc]; exact (none .regularization fun _ _ h => hc h.1).1
  · by_cases hc : 0 < cfg.loss.gammaCoherence ∧ cfg.coh.isSome
    · rw [if_pos hc, if_pos hc]
      have h8 := hser .coherence
      rw [← h7] at h8
      obtain ⟨c0, cs, ecs⟩ : ∃ c0 cs, st.agg.hist.coherence = c0 :: cs := by
        have := hlen .coherence
        cases hh : st.agg.hist.coherence with
        | nil => simp [LossKey.get, hh] at this
        | cons c0 cs => exact ⟨c0, cs, rfl⟩
      have hcs : cs.length = as.length := by
        have := hlen .coherence
        simpa [LossKey.get, ecs] using this
      have hoff : ¬ LossKey.coherence.On cfg.loss a0 := by
        intro h
        have := h.2
        rw [h2] at this
        simp at this
      have hon : ∀ x ∈ (List.range' 0 as.length).zip as, LossKey.coherence.On cfg.loss x.2 := by
        intro x hx
        exact ⟨hc.1, (h3 _ (List.of_mem_zip hx).2).2.2 hc.2⟩
      refine ⟨h8.1.trans ?_, h8.2.trans ?_⟩
      · simp only [LossKey.get, ecs, List.drop_succ_cons, List.drop_zero]
        rw [hcalls, List.zip_cons_cons, List.filter_cons_of_neg (by simpa using hoff), List.filter_eq_self.2,
          List.map_snd_zip (by simp [hcs])]
        intro x hx
        simpa using hon x.1 (List.of_mem_zip hx).1
      · rw [hcalls, List.filter_cons_of_neg (by simpa using hoff), List.filter_eq_self.2, zip_range'_fst, h4,
          List.range_eq_range']
        intro x hx
        simpa using hon x hx
    · rw [if_neg hc, if_neg hc]
      refine none .coherence fun x hx hon => hc ⟨hon.1, ?_⟩
      rcases List.mem_cons.1 (hmem x hx) with h | h
      · rw [h] at hon
        have := hon.2
        rw [h2] at this
        simp at this
      · exact (h3 _ h).2.1 hon.2

/-! ### The figure -/

theorem pySlice_one {α : Type} (l : List α) : pySlice l (some 1) none = l.drop 1 := by
  cases l <;> simp [pySlice, sliceIdx]

theorem scalarTags_snoc (l : List LogEvent) (e : LogEvent) :
    scalarTags (l ++ [e]) = if e.tag ∈ scalarTags l then scalarTags l else scalarTags l ++ [e.tag] := by
  unfold scalarTags
  rw [List.foldl_append, List.foldl_cons, List.foldl_nil]

theorem mem_scalarTags (l : List LogEvent) (t : String) : t ∈ scalarTags l ↔ t ∈ l.map LogEvent.tag := by
  induction l using List.reverseRecOn with
  | nil => simp [scalarTags]
  | append_singleton l e ih =>
    rw [scalarTags_snoc, List.map_append, List.mem_append, ← ih]
    split_ifs with h
    · simp only [List.map_cons, List.map_nil, List.mem_singleton]
      constructor
      · exact Or.inl
      · rintro (h' | h')
        · exact h'
        · rw [h']; exact h
    · simp

/-- Tags come in the order of their first event. -/
theorem scalarTags_sorted (l : List LogEvent) :
    (scalarTags l).Pairwise fun t u => (l.map LogEvent.tag).idxOf t < (l.map LogEvent.tag).idxOf u := by
  induction l using List.reverseRecOn with
  | nil => simp [scalarTags]
  | append_singleton l e ih =>
    have keep : ∀ t ∈ scalarTags l, ((l ++ [e]).map LogEvent.tag).idxOf t = (l.map LogEvent.tag).idxOf t ∧
        (l.map LogEvent.tag).idxOf t < l.length := by
      intro t ht
      have hm := (mem_scalarTags l t).1 ht
      refine ⟨?_, by simpa using List.idxOf_lt_length_iff.2 hm⟩
      rw [List.map_append, List.idxOf_append, if_pos hm]
    have ih' : (scalarTags l).Pairwise fun t u =>
        ((l ++ [e]).map LogEvent.tag).idxOf t < ((l ++ [e]).map LogEvent.tag).idxOf u := by
      refine ih.imp_of_mem fun ha hb hab => ?_
      rw [(keep _ ha).1, (keep _ hb).1]
      exact hab
    rw [scalarTags_snoc]
    split_ifs with h
    · exact ih'
    · refine List.pairwise_append.2 ⟨ih', by simp, ?_⟩
      intro t ht u hu
      rw [List.mem_singleton] at hu
      subst hu
      rw [(keep t ht).1, List.map_append, List.idxOf_append, if_neg (fun h' => h ((mem_scalarTags l _).2 h'))]
      have := (keep t ht).2
      simp only [List.length_map]
      omega

theorem scalarTags_nodup (l : List LogEvent) : (scalarTags l).Nodup :=
  (scalarTags_sorted l).imp fun h e => by rw [e] at h; exact lt_irrefl _ h

/-- **C114** `plot_loss_logs` raises `ValueError` exactly on an empty log, `TypeError` exactly when the log has one single
tag, and otherwise draws one panel per tag, the tag seen last at the left; the curve of a tag consists of its values
without the first two. -/
theorem C114_outcome (log : List LogEvent) :
    (plotLossLogs log = .error .valueError ↔ log = []) ∧
    (plotLossLogs log = .error .typeError ↔ log ≠ [] ∧ ∀ e ∈ log, ∀ e' ∈ log, e.tag = e'.tag) ∧
    ((∃ e ∈ log, ∃ e' ∈ log, e.tag ≠ e'.tag) → ∃ panels, plotLossLogs log = .ok panels) ∧
    ∀ panels, plotLossLogs log = .ok panels →
      (panels.map Prod.fst).Pairwise (fun t u => (log.map LogEvent.tag).idxOf u < (log.map LogEvent.tag).idxOf t) ∧
      ∀ t c, (t, c) ∈ panels ↔ t ∈ log.map LogEvent.tag ∧ c = (scalarsOf log t).drop 2 := by
  have hnil : scalarTags log = [] ↔ log = [] := by
    constructor
    · intro h
      cases log with
      | nil => rfl
      | cons e l =>
        have : e.tag ∈ scalarTags (e :: l) := (mem_scalarTags _ _).2 (by simp)
        rw [h] at this
        simp at this
    · rintro rfl; rfl
  have hone : (scalarTags log).length = 1 ↔ log ≠ [] ∧ ∀ e ∈ log, ∀ e' ∈ log, e.tag = e'.tag := by
    constructor
    · intro h
      obtain ⟨t, ht⟩ := List.length_eq_one_iff.1 h
      refine ⟨fun h' => by rw [hnil.2 h'] at ht; simp at ht, fun e he e' he' => ?_⟩
      have h1 := (mem_scalarTags log e.tag).2 (List.mem_map_of_mem he)
      have h2 := (mem_scalarTags log e'.tag).2 (List.mem_map_of_mem he')
      rw [ht, List.mem_singleton] at h1 h2
      rw [h1, h2]
    · rintro ⟨h1, h2⟩
      have hne : scalarTags log ≠ [] := fun h => h1 (hnil.1 h)
      cases hs : scalarTags log with
      | nil => exact absurd hs hne
      | cons t l =>
        cases l with
        | nil => rfl
        | cons u l =>
          exfalso
          have ht := (mem_scalarTags log t).1 (by rw [hs]; simp)
          have hu := (mem_scalarTags log u).1 (by rw [hs]; simp)
          obtain ⟨e, he, rfl⟩ := List.mem_map.1 ht
          obtain ⟨e', he', rfl⟩ := List.mem_map.1 hu
          have := scalarTags_nodup log
          rw [hs, h2 e he e' he'] at this
          simp at this
  have hz : (scalarTags log).length = 0 ↔ log = [] := by rw [List.length_eq_zero_iff, hnil]
  have hval : plotLossLogs log = if (scalarTags log).length = 0 then .error .valueError
      else if (scalarTags log).length = 1 then .error .typeError
      else .ok ((scalarTags log).reverse.map fun t => (t, (scalarsOf log t).drop 2)) := by
    unfold plotLossLogs
    simp only [List.length_map, pySlice_one]
    rw [← List.map_reverse, List.map_map]
    simp only [Function.comp_def, pySlice_one, List.drop_drop]
  rw [hval]
  refine ⟨?_, ?_, ?_, ?_⟩
  · rw [← hz]
    split_ifs <;> simp_all
  · rw [← hone]
    split_ifs <;> simp_all
  · rintro ⟨e, he, e', he', hne⟩
    rw [if_neg (fun h => by rw [hz.1 h] at he; simp at he), if_neg (fun h => hne ((hone.1 h).2 e he e' he'))]
    exact ⟨_, rfl⟩
  · intro panels hp
    split_ifs at hp
    simp only [Except.ok.injEq] at hp
    subst hp
    constructor
    · rw [List.map_map]
      have : (Prod.fst ∘ fun t : String => (t, (scalarsOf log t).drop 2)) = id := rfl
      rw [this, List.map_id, List.pairwise_reverse]
      exact scalarTags_sorted log
    · intro t c
      rw [List.mem_map]
      constructor
      · rintro ⟨u, hu, e⟩
        simp only [Prod.mk.injEq] at e
        obtain ⟨rfl, rfl⟩ := e
        exact ⟨(mem_scalarTags log u).1 (by simpa using hu), rfl⟩
      · rintro ⟨ht, rfl⟩
        exact ⟨t, by simpa using (mem_scalarTags log t).2 ht, rfl⟩

/-! ### The figure of a fit -/

theorem mem_tags_iff (log : List LogEvent) (t : String) : t ∈ log.map LogEvent.tag ↔ scalarsOf log t ≠ [] := by
  unfold scalarsOf
  rw [ne_eq, List.map_eq_nil_iff, List.filter_eq_nil_iff, List.mem_map]
  push Not
  simp only [decide_eq_true_eq]

theorem averages_nonneg (p : LossParams) (k1s : List ℝ) {z : ℝ} (hz : 0 ≤ z) (calls : List EvalArgs)
    (L : LossKey → List ℝ) (hL : ∀ key : LossKey, key.get (runEvals p k1s z calls .init).hist = (L key).map fin) (m : ℕ)
    (key : LossKey) : (∀ y ∈ L key, 0 ≤ y) ∧ 0 ≤ Spec.averages L m key := by
  have hnn : ∀ y ∈ L key, 0 ≤ y := by
    intro y hy
    have h1 : fin y ∈ key.get (runEvals p k1s z calls .init).hist := by
      rw [hL key]
      exact List.mem_map_of_mem hy
    rcases (eval_key_ge0 p k1s hz calls key).1 _ h1 with h | ⟨w, hw, h⟩
    · simp at h
    · injection h with h; rw [h]; exact hw
  refine ⟨hnn, ?_⟩
  by_cases he : (L key).take m = []
  · simp [Spec.averages, he, Spec.ema]
  · refine (Spec.ema_mem_Icc he (b := ((L key).take m).sum) fun x hx => ?_).1
    exact ⟨hnn x (List.mem_of_mem_take hx),
      List.single_le_sum (fun y hy => hnn y (List.mem_of_mem_take hy)) x hx⟩

theorem Spec.ema_pos {v : ℝ} {l : List ℝ} (hv : 0 < v) (hl : ∀ y ∈ l, 0 ≤ y) : 0 < Spec.ema (v :: l) := by
  unfold Spec.ema
  refine add_pos_of_pos_of_nonneg (by positivity) (List.sum_nonneg ?_)
  intro x hx
  obtain ⟨i, hi, rfl⟩ := List.mem_map.1 hx
  have hi := List.mem_range.1 hi
  have : 0 ≤ l.getD i 0 := by
    rw [List.getD_eq_getElem?_getD, List.getElem?_eq_getElem hi]
    exact hl _ (List.getElem_mem hi)
  positivity

theorem whole_pos (p : LossParams) (k1s : List ℝ) {z : ℝ} (hz : 0 ≤ z) (calls : List EvalArgs)
    (L : LossKey → List ℝ) (hL : ∀ key : LossKey, key.get (runEvals p k1s z calls .init).hist = (L key).map fin)
    (h0 : 0 < (L .mse).getD 0 0) {m : ℕ} (hm : 0 < m) : 0 < Spec.whole (Spec.averages L m) := by
  have a := (averages_nonneg p k1s hz calls L hL m .coherence).2
  have b := (averages_nonneg p k1s hz calls L hL m .pen1).2
  have c := (averages_nonneg p k1s hz calls L hL m .pen2).2
  have d := (averages_nonneg p k1s hz calls L hL m .regularization).2
  have e : 0 < Spec.averages L m .mse := by
    have hn := (averages_nonneg p k1s hz calls L hL m .mse).1
    unfold Spec.averages
    cases hl : L .mse with
    | nil => rw [hl] at h0; simp at h0
    | cons v l =>
      rw [hl] at h0 hn
      obtain ⟨m, rfl⟩ := Nat.exists_eq_succ_of_ne_zero hm.ne'
      rw [List.take_succ_cons]
      exact Spec.ema_pos h0 fun y hy => hn y (List.mem_cons_of_mem _ (List.mem_of_mem_take hy))
  unfold Spec.whole
  linarith

theorem filter_steps (n : ℕ) (P : ℕ → Prop) [DecidablePred P] (hP : ∀ i, P i) :
    ((List.range (n + 1)).filter fun i => 0 < (0 :: List.range n).getD i 0 ∧ P i) = (List.range (n - 1)).map (· + 2) := by
  have e : ((List.range (n + 1)).filter fun i => 0 < (0 :: List.range n).getD i 0 ∧ P i) =
      (List.range (n + 1)).filter fun i => decide (2 ≤ i) := by
    apply List.filter_congr
    intro i hi
    have hi := List.mem_range.1 hi
    have : (0 < (0 :: List.range n).getD i 0 ∧ P i) ↔ 2 ≤ i := by
      rcases i with _ | i
      · simp
      · rw [List.getD_cons_succ, List.getD_eq_getElem?_getD, List.getElem?_range (by omega)]
        simp [hP]
        omega
    simp only [this]
  rw [e]
  clear e
  induction n with
  | zero => rfl
  | succ n ih =>
    rw [List.range_succ, List.filter_append, ih]
    rcases n with _ | n
    · rfl
    · simp [List.range_succ]

/-- **C114** The logged shares of a fit that returned finite losses and did not start at zero misfit: the first closure
evaluation has step 0 as well, so the series begins with the third evaluation. -/
theorem C114_shares_fit (cfg : TrainCfg) (hz : 0 ≤ cfg.phys.zref) (opt : ℕ → OptStep) (s : OPS) {r : Calibrated} {st : TrainState}
    (h : calibrate cfg opt s = (.ok r, st)) (L : LossKey → List ℝ)
    (hL : ∀ key : LossKey, key.get st.agg.hist = (L key).map fin) (h0 : 0 < (L .mse).getD 0 0) (k : ShareKey) :
    scalarsOf (calibrateLog cfg opt s) k.tag = (List.range (st.eCount - 1)).map fun j =>
      fin (k.part (Spec.averages L (j + 3)) / Spec.whole (Spec.averages L (j + 3))) := by
  obtain ⟨a0, as, -, -, h4, h5, h6, h7⟩ := calibrate_run h
  set calls : List (ℕ × EvalArgs) := (0, a0) :: (List.range' 0 as.length).zip as with hcalls
  have hsnd : calls.map Prod.snd = a0 :: as := by rw [hcalls, List.map_cons, zip_range'_snd]
  have hfst : calls.map Prod.fst = 0 :: List.range as.length := by
    rw [hcalls, List.map_cons, zip_range'_fst, List.range_eq_range']
  have hclen : calls.length = as.length + 1 := by simp [hcalls]
  rw [h6] at hL
  rw [h7, C114_shares _ _ _ calls (by rw [hsnd]; exact h5) L (by rw [hsnd]; exact hL) k, hfst, hclen,
    filter_steps _ _ fun i => whole_pos _ _ hz _ L hL h0 (Nat.succ_pos i), List.map_map, h4]
  rfl

open Classical in
/-- **C114** (finding) The curves drawn side by side over the same axis are shifted against each other: the `j`-th drawn
value belongs to evaluation `j + 2` for the misfit, to evaluation `j + 3` for the coherence and to evaluation `j + 4` for
the shares (evaluation 0 is the initial one). -/
theorem C114_misaligned (cfg : TrainCfg) (hz : 0 ≤ cfg.phys.zref) (opt : ℕ → OptStep) (s : OPS) {r : Calibrated} {st : TrainState}
    (h : calibrate cfg opt s = (.ok r, st)) (L : LossKey → List ℝ)
    (hL : ∀ key : LossKey, key.get st.agg.hist = (L key).map fin) (h0 : 0 < (L .mse).getD 0 0)
    {panels : List (String × List Fl)} (hfig : plotLossLogs (calibrateLog cfg opt s) = .ok panels) :
    (∀ c, ("MSE Loss", c) ∈ panels ↔ c = ((L .mse).drop 2).map fin) ∧
    (0 < cfg.loss.gammaCoherence → cfg.coh.isSome → 0 < st.eCount →
      ∀ c, ("Coherence Loss/Total", c) ∈ panels ↔ c = ((L .coherence).drop 3).map fin) ∧
    (2 ≤ st.eCount → ∀ (k : ShareKey) c, (k.tag, c) ∈ panels ↔ c = (List.range (st.eCount - 3)).map fun j =>
      fin (k.part (Spec.averages L (j + 5)) / Spec.whole (Spec.averages L (j + 5)))) := by
  obtain ⟨e0, e1, -, -, -, -, e2, e3⟩ := C114_fit cfg opt s h
  have hp := ((C114_outcome (calibrateLog cfg opt s)).2.2.2 panels hfig).2
  refine ⟨fun c => ?_, fun hc hcoh he c => ?_, fun he k c => ?_⟩
  · rw [hp, mem_tags_iff, e1]
    have : st.agg.hist.mse ≠ [] := by
      intro h'; rw [h'] at e0; simp at e0
    have h1 := hL .mse
    simp only [LossKey.get] at h1
    rw [h1, List.map_drop]
    rw [h1] at this
    exact ⟨fun h => h.2, fun h => ⟨this, h⟩⟩
  · rw [if_pos ⟨hc, hcoh⟩] at e2 e3
    have h1 := hL .coherence
    simp only [LossKey.get] at h1
    have hne : scalarsOf (calibrateLog cfg opt s) "Coherence Loss/Total" ≠ [] := by
      intro h'
      have : (scalarsOf (calibrateLog cfg opt s) "Coherence Loss/Total").length =
          (stepsOf (calibrateLog cfg opt s) "Coherence Loss/Total").length := by simp [scalarsOf, stepsOf]
      rw [h', e3] at this
      simp at this
      omega
    rw [hp, mem_tags_iff]
    rw [e2] at hne ⊢
    rw [List.drop_drop, h1, List.map_drop]
    rw [h1] at hne
    exact ⟨fun h => h.2, fun h => ⟨hne, h⟩⟩
  · have e4 := C114_shares_fit cfg hz opt s h L hL h0 k
    rw [hp, mem_tags_iff, e4]
    have hne : (List.range (st.eCount - 1)).map (fun j =>
      fin (k.part (Spec.averages L (j + 3)) / Spec.whole (Spec.averages L (j + 3)))) ≠ [] := by
      simp only [ne_eq, List.map_eq_nil_iff, List.range_eq_nil]
      omega
    have e5 : ((List.range (st.eCount - 1)).map (fun j =>
      fin (k.part (Spec.averages L (j + 3)) / Spec.whole (Spec.averages L (j + 3))))).drop 2 =
      (List.range (st.eCount - 3)).map fun j =>
        fin (k.part (Spec.averages L (j + 5)) / Spec.whole (Spec.averages L (j + 5))) := by
      apply List.ext_getElem
      · simp; omega
      · intro i h1 h2
        simp only [List.getElem_drop, List.getElem_map, List.getElem_range]
        rw [show 2 + i + 3 = i + 5 by omega]
    rw [e5]
    exact ⟨fun h => h.2, fun h => ⟨hne, h⟩⟩

/-- No event but that of the misfit, when every other term is off and every step is 0. -/
theorem runLog_only_mse (p : LossParams) (k1s : List ℝ) (z : ℝ) (calls : List (ℕ × EvalArgs))
    (hok : AllReturned p k1s z (calls.map Prod.snd)) (hs : ∀ x ∈ calls, x.1 = 0 ∧ ¬ (0 < p.gammaCoherence ∧ x.2.coherence.isSome))
    (h1 : ¬ 0 < p.alphaPen1) (h2 : ¬ 0 < p.alphaPen2) (h3 : ¬ 0 < p.betaReg) :
    ∀ e ∈ runLog p k1s z calls .init, e.tag = "MSE Loss" := by
  induction calls using List.reverseRecOn with
  | nil => simp [runLog]
  | append_singleton c x ih =>
    obtain ⟨i, a⟩ := x
    rw [List.map_append, List.map_singleton] at hok
    obtain ⟨h4, v, hv⟩ := allReturned_snoc hok
    have h5 := ih h4 fun x hx => hs x (List.mem_append_left _ hx)
    obtain ⟨h6, h7⟩ := hs (i, a) (by simp)
    simp only at h6 h7
    subst h6
    rw [runLog_append]
    intro e he
    rcases List.mem_append.1 he with he | he
    · exact h5 e he
    · have e3 : runLog p k1s z [(0, a)] (runEvals p k1s z (c.map Prod.snd) .init) =
        (lossEvalLog p k1s z 0 a (runEvals p k1s z (c.map Prod.snd) .init)).2 := by simp [runLog]
      obtain ⟨u, w, x, e4⟩ := lossEvalLog_snd 0 (runEvals p k1s z (c.map Prod.snd) .init) hv
      rw [e3, e4, if_neg h7, if_neg h1, if_neg h2, if_neg (fun h => h3 h.1)] at he
      simp [ratioLog] at he
      rw [he]

/-- **C114** Whether the figure of a fit appears at all: with finite losses and a positive initial misfit it raises
`TypeError` exactly when the misfit is the only enabled term and the closure ran at most once; otherwise it is drawn. -/
theorem C114_figure (cfg : TrainCfg) (hz : 0 ≤ cfg.phys.zref) (opt : ℕ → OptStep) (s : OPS) {r : Calibrated} {st : TrainState}
    (h : calibrate cfg opt s = (.ok r, st)) (L : LossKey → List ℝ)
    (hL : ∀ key : LossKey, key.get st.agg.hist = (L key).map fin) (h0 : 0 < (L .mse).getD 0 0) :
    (plotLossLogs (calibrateLog cfg opt s) = .error .typeError ↔
      cfg.loss.alphaPen1 ≤ 0 ∧ cfg.loss.alphaPen2 ≤ 0 ∧ cfg.loss.betaReg ≤ 0 ∧
        ¬ (0 < cfg.loss.gammaCoherence ∧ cfg.coh.isSome ∧ 0 < st.eCount) ∧ st.eCount ≤ 1) ∧
    (plotLossLogs (calibrateLog cfg opt s) ≠ .error .typeError →
      ∃ panels, plotLossLogs (calibrateLog cfg opt s) = .ok panels) := by
  classical
  set log := calibrateLog cfg opt s with hlog
  obtain ⟨e0, e1, -, f1, f2, f3, f4, f5⟩ := C114_fit cfg opt s h
  rw [← hlog] at e1 f1 f2 f3 f4 f5
  have hmse : "MSE Loss" ∈ log.map LogEvent.tag := by
    rw [mem_tags_iff, e1]
    intro h'; rw [h'] at e0; simp at e0
  obtain ⟨em, hem, emt⟩ := List.mem_map.1 hmse
  obtain ⟨g1, g2, g3, -⟩ := C114_outcome log
  have hne : log ≠ [] := fun h' => by rw [h'] at hem; simp at hem
  -- a second tag
  have second : ∀ t, t ≠ "MSE Loss" → scalarsOf log t ≠ [] → plotLossLogs log ≠ .error .typeError := by
    intro t ht hs hT
    obtain ⟨e', he', et⟩ := List.mem_map.1 ((mem_tags_iff log t).2 hs)
    exact ht (by rw [← et, ← emt]; exact (g2.1 hT).2 e' he' em hem)
  have hlenk : ∀ key : LossKey, key.get st.agg.hist ≠ [] := by
    obtain ⟨a0, as, -, -, -, h5, h6, -⟩ := calibrate_run h
    intro key hk
    have := allReturned_length h5 key
    rw [← h6, hk] at this
    simp at this
  refine ⟨⟨fun hT => ?_, fun hoff => ?_⟩, fun hT => ?_⟩
  · refine ⟨?_, ?_, ?_, ?_, ?_⟩
    · by_contra hc
      rw [if_pos (not_le.1 hc)] at f1
      exact second "1st Order Penalty" (by decide) (by rw [f1]; exact hlenk .pen1) hT
    · by_contra hc
      rw [if_pos (not_le.1 hc)] at f2
      exact second "2nd Order Penalty" (by decide) (by rw [f2]; exact hlenk .pen2) hT
    · by_contra hc
      rw [if_pos (not_le.1 hc)] at f3
      exact second "Regularization" (by decide) (by rw [f3]; exact hlenk .regularization) hT
    · rintro ⟨hc, hcoh, he⟩
      rw [if_pos ⟨hc, hcoh⟩] at f5
      refine second "Coherence Loss/Total" (by decide) (fun h' => ?_) hT
      have : (scalarsOf log "Coherence Loss/Total").length = (stepsOf log "Coherence Loss/Total").length := by
        simp [scalarsOf, stepsOf]
      rw [h', f5] at this
      simp at this
      omega
    · by_contra hc
      refine second ShareKey.mse.tag (by simp [ShareKey.tag]) ?_ hT
      rw [C114_shares_fit cfg hz opt s h L hL h0 .mse]
      simp only [ne_eq, List.map_eq_nil_iff, List.range_eq_nil]
      omega
  · obtain ⟨c1, c2, c3, c4, c5⟩ := hoff
    refine g2.2 ⟨hne, ?_⟩
    obtain ⟨a0, as, i1, i2, h4, h5, h6, h7⟩ := calibrate_run h
    set calls : List (ℕ × EvalArgs) := (0, a0) :: (List.range' 0 as.length).zip as with hcalls
    have hsnd : calls.map Prod.snd = a0 :: as := by rw [hcalls, List.map_cons, zip_range'_snd]
    have hall := runLog_only_mse cfg.loss cfg.k1s cfg.phys.zref calls (by rw [hsnd]; exact h5) (by
      intro x hx
      rw [hcalls] at hx
      rcases List.mem_cons.1 hx with rfl | hx
      · exact ⟨rfl, by simp [i1.coherence]⟩
      · have hx := List.of_mem_zip (a := x.1) (b := x.2) hx
        have hpos : 0 < as.length := List.length_pos_of_mem hx.2
        refine ⟨?_, fun hh => c4 ⟨hh.1, (i2 _ hx.2).2.1 hh.2, by omega⟩⟩
        have := (List.mem_range'_1.1 hx.1).2
        omega) (not_lt.2 c1) (not_lt.2 c2) (not_lt.2 c3)
    rw [← h7, ← hlog] at hall
    intro e he e' he'
    rw [hall e he, hall e' he']
  · apply g3
    by_contra hcon
    push Not at hcon
    exact hT (g2.2 ⟨hne, hcon⟩)

/-! ### Evaluations that raise -/

theorem raiseIfNan_error {x : Fl} {e : PyErr} (h : raiseIfNan x = .error e) : x = nan := by
  unfold raiseIfNan at h
  by_cases hn : x.IsNan
  · exact isNan_iff.1 hn
  · rw [if_neg hn] at h; cases h

theorem cohTermLog_bad {p : LossParams} {i : ℕ} {a : EvalArgs} {r : Except PyErr Fl} {l : List LogEvent}
    (h : cohTermLog p i a = (r, l)) : (∀ e ∈ l, e.tag ≠ "MSE Loss") ∧
      (r = .error .valueError → ∃ ev ∈ l, ev.value = nan ∧ ev.step = i) := by
  unfold cohTermLog at h
  cases hc : a.coherence with
  | none => rw [hc] at h; cases h; exact ⟨by simp, by simp⟩
  | some c =>
    rw [hc] at h
    simp only at h
    by_cases hg : 0 < p.gammaCoherence
    · rw [if_pos hg] at h
      unfold coherenceLog at h
      by_cases hs : sameShape c.modelU c.dataU ∧ sameShape c.modelV c.dataV ∧ sameShape c.modelW c.dataW
      · rw [if_pos hs] at h
        obtain ⟨rfl, rfl⟩ := Prod.mk.inj h
        exact ⟨by simp, fun hr => ⟨_, List.mem_cons_self, raiseIfNan_error hr, rfl⟩⟩
      · rw [if_neg hs] at h
        cases h
        exact ⟨by simp, by simp⟩
    · rw [if_neg hg] at h
      cases h
      exact ⟨by simp, by simp⟩

theorem pen1TermLog_bad {p : LossParams} {k1s : List ℝ} {z : ℝ} {i : ℕ} {a : EvalArgs} {r : Except PyErr Fl} {l : List LogEvent}
    (h : pen1TermLog p k1s z i a = (r, l)) : (∀ e ∈ l, e.tag ≠ "MSE Loss") ∧
      (r = .error .valueError → ∃ ev ∈ l, ev.value = nan ∧ ev.step = i) := by
  unfold pen1TermLog at h
  by_cases hg : 0 < p.alphaPen1
  · rw [if_pos hg] at h
    unfold pen1Log at h
    by_cases hs : ∀ row ∈ a.y, row.length = k1s.length
    · rw [if_pos hs] at h
      obtain ⟨rfl, rfl⟩ := Prod.mk.inj h
      exact ⟨by simp, fun hr => ⟨_, List.mem_cons_self, raiseIfNan_error hr, rfl⟩⟩
    · rw [if_neg hs] at h
      cases h
      exact ⟨by simp, by simp⟩
  · rw [if_neg hg] at h
    cases h
    exact ⟨by simp, by simp⟩

theorem pen2TermLog_bad {p : LossParams} {k1s : List ℝ} {z : ℝ} {i : ℕ} {a : EvalArgs} {r : Except PyErr Fl} {l : List LogEvent}
    (h : pen2TermLog p k1s z i a = (r, l)) : (∀ e ∈ l, e.tag ≠ "MSE Loss") ∧
      (r = .error .valueError → ∃ ev ∈ l, ev.value = nan ∧ ev.step = i) := by
  unfold pen2TermLog at h
  by_cases hg : 0 < p.alphaPen2
  · rw [if_pos hg] at h
    unfold pen2Log at h
    by_cases hs : ∀ row ∈ a.y, row.length = k1s.length
    · rw [if_pos hs] at h
      obtain ⟨rfl, rfl⟩ := Prod.mk.inj h
      exact ⟨by simp, fun hr => ⟨_, List.mem_cons_self, raiseIfNan_error hr, rfl⟩⟩
    · rw [if_neg hs] at h
      cases h
      exact ⟨by simp, by simp⟩
  · rw [if_neg hg] at h
    cases h
    exact ⟨by simp, by simp⟩

theorem regTermLog_bad {p : LossParams} {i : ℕ} {a : EvalArgs} {r : Except PyErr Fl} {l : List LogEvent}
    (h : regTermLog p i a = (r, l)) : (∀ e ∈ l, e.tag ≠ "MSE Loss") ∧
      (r = .error .valueError → ∃ ev ∈ l, ev.value = nan ∧ ev.step = i) := by
  unfold regTermLog at h
  cases ha : a.theta with
  | none => rw [ha] at h; cases h; exact ⟨by simp, by simp⟩
  | vec θ =>
    rw [ha] at h
    simp only at h
    by_cases hg : 0 < p.betaReg
    · rw [if_pos hg] at h
      unfold regLog at h
      obtain ⟨rfl, rfl⟩ := Prod.mk.inj h
      exact ⟨by simp, fun hr => ⟨_, List.mem_cons_self, raiseIfNan_error hr, rfl⟩⟩
    · rw [if_neg hg] at h
      cases h
      exact ⟨by simp, by simp⟩
  | _ =>
    rw [ha] at h
    simp only at h
    by_cases hg : 0 < p.betaReg
    · rw [if_pos hg] at h
      cases h
      exact ⟨by simp, by simp⟩
    · rw [if_neg hg] at h
      cases h
      exact ⟨by simp, by simp⟩

/-- **C114** Whichever term is NaN, an evaluation that raises because of it leaves the histories as they were and a NaN at its step
in the log; the misfit it computed is in the log as well, once. -/
theorem C114_failed (p : LossParams) (k1s : List ℝ) (z : ℝ) (i : ℕ) (a : EvalArgs) (s : LossState)
    (h : (lossEvalLog p k1s z i a s).1.1 = .error .valueError) :
    (lossEvalLog p k1s z i a s).1.2 = s ∧ (∃ ev ∈ (lossEvalLog p k1s z i a s).2, ev.value = nan ∧ ev.step = i) ∧
    (lossEvalLog p k1s z i a s).2.filter (fun e => e.tag = "MSE Loss") = [⟨"MSE Loss",
      flMean (zipFlat (fun m t => Fl.log (Fl.abs (m / t)) * Fl.log (Fl.abs (m / t))) a.y a.yData), i⟩] := by
  have hf : ∀ {l : List LogEvent}, (∀ e ∈ l, e.tag ≠ "MSE Loss") → l.filter (fun e => e.tag = "MSE Loss") = [] :=
    fun hl => List.filter_eq_nil_iff.2 fun e he => by simpa using hl e he
  have hm : ∀ {r l}, mseLog i a.y a.yData = (r, l) → r ≠ .error .runtimeError → l = [⟨"MSE Loss",
      flMean (zipFlat (fun m t => Fl.log (Fl.abs (m / t)) * Fl.log (Fl.abs (m / t))) a.y a.yData), i⟩] ∧
      (r = .error .valueError → flMean (zipFlat (fun m t => Fl.log (Fl.abs (m / t)) * Fl.log (Fl.abs (m / t))) a.y a.yData) = nan) := by
    intro r l h hr
    unfold mseLog at h
    by_cases hs : sameShape a.y a.yData
    · rw [if_pos hs] at h
      obtain ⟨rfl, rfl⟩ := Prod.mk.inj h
      exact ⟨rfl, fun hr => raiseIfNan_error hr⟩
    · rw [if_neg hs] at h
      cases h
      exact absurd rfl hr
  unfold lossEvalLog at h ⊢
  rcases e1 : mseLog i a.y a.yData with ⟨e | m, l1⟩
  · rw [e1] at h
    simp only at h ⊢
    obtain ⟨rfl, hn⟩ := hm e1 (by rw [h]; simp)
    exact ⟨trivial, ⟨_, List.mem_cons_self, hn h, rfl⟩, by simp⟩
  obtain ⟨rfl, -⟩ := hm e1 (by simp)
  rw [e1] at h
  simp only at h ⊢
  rcases e2 : cohTermLog p i a with ⟨e | c, l2⟩
  · rw [e2] at h
    obtain ⟨ht, hn⟩ := cohTermLog_bad e2
    obtain ⟨ev, hev, hv⟩ := hn h
    refine ⟨rfl, ⟨ev, by simp [hev], hv⟩, ?_⟩
    simp only
    rw [List.filter_append, hf ht]; simp
  have t2 := (cohTermLog_bad e2).1
  rw [e2] at h
  simp only at h ⊢
  rcases e3 : pen1TermLog p k1s z i a with ⟨e | q1, l3⟩
  · rw [e3] at h
    obtain ⟨ht, hn⟩ := pen1TermLog_bad e3
    obtain ⟨ev, hev, hv⟩ := hn h
    refine ⟨rfl, ⟨ev, by simp [hev], hv⟩, ?_⟩
    simp only
    rw [List.filter_append, List.filter_append, hf ht, hf t2]; simp
  have t3 := (pen1TermLog_bad e3).1
  rw [e3] at h
  simp only at h ⊢
  rcases e4 : pen2TermLog p k1s z i a with ⟨e | q2, l4⟩
  · rw [e4] at h
    obtain ⟨ht, hn⟩ := pen2TermLog_bad e4
    obtain ⟨ev, hev, hv⟩ := hn h
    refine ⟨rfl, ⟨ev, by simp [hev], hv⟩, ?_⟩
    simp only
    rw [List.filter_append, List.filter_append, List.filter_append, hf ht, hf t2, hf t3]; simp
  have t4 := (pen2TermLog_bad e4).1
  rw [e4] at h
  simp only at h ⊢
  rcases e5 : regTermLog p i a with ⟨e | r, l5⟩
  · rw [e5] at h
    obtain ⟨ht, hn⟩ := regTermLog_bad e5
    obtain ⟨ev, hev, hv⟩ := hn h
    refine ⟨rfl, ⟨ev, by simp [hev], hv⟩, ?_⟩
    simp only
    rw [List.filter_append, List.filter_append, List.filter_append, List.filter_append, hf ht, hf t2, hf t3, hf t4]; simp
  · rw [e5] at h
    cases h

/-- **C114** A prediction with a NaN: the evaluation raises and leaves the histories as they were, but the log has a NaN
for the misfit. -/
theorem C114_failed_trace (p : LossParams) (k1s : List ℝ) (z : ℝ) (i : ℕ) (a : EvalArgs) (s : LossState)
    (hs : sameShape a.y a.yData) (h : ∃ row ∈ a.y, nan ∈ row) :
    lossEvalLog p k1s z i a s = ((.error .valueError, s), [⟨"MSE Loss", nan, i⟩]) := by
  have h1 := C24_nan_raises ⟨0, 0, 0, 0⟩ k1s z ⟨a.y, a.yData, .none, none⟩ s hs h
  have h2 : mseTerm a.y a.yData = .error .valueError := by
    rcases hm : mseTerm a.y a.yData with e | v
    · have : evalTerms ⟨0, 0, 0, 0⟩ k1s z ⟨a.y, a.yData, .none, none⟩ = .error e := by
        simp [evalTerms, hm, Bind.bind, Except.bind]
      unfold lossEval at h1
      rw [this] at h1
      exact h1
    · exfalso
      have : evalTerms ⟨0, 0, 0, 0⟩ k1s z ⟨a.y, a.yData, .none, none⟩ = .ok ⟨v, fin 0, fin 0, fin 0, fin 0⟩ :=
        evalTerms_ok.2 ⟨hm, rfl, by simp [pen1Term], by simp [pen2Term], rfl⟩
      unfold lossEval at h1
      rw [this] at h1
      simp at h1
  have h3 : mseLog i a.y a.yData = (.error .valueError, [⟨"MSE Loss", nan, i⟩]) := by
    have h4 := mseLog_fst i a.y a.yData
    rw [h2] at h4
    unfold mseLog at h4 ⊢
    rw [if_pos hs] at h4 ⊢
    simp only at h4 ⊢
    rw [h4]
    unfold raiseIfNan at h4
    by_cases hn : (flMean (zipFlat (fun m t => Fl.log (Fl.abs (m / t)) * Fl.log (Fl.abs (m / t))) a.y a.yData)).IsNan
    · rw [isNan_iff.1 hn]
    · rw [if_neg hn] at h4; simp at h4
  unfold lossEvalLog
  rw [h3]

/-! ### `get_current_loss_info` -/

/-- **C115** After any sequence of evaluations, some of which may have raised, `get_current_loss_info` does not raise: it is
the empty dictionary exactly when no evaluation returned, and otherwise its total is the value of the last evaluation that
returned and is the sum of the last recorded terms, of which it reports misfit and coherence. -/
theorem C115_info (p : LossParams) (k1s : List ℝ) (z : ℝ) (calls : List EvalArgs) :
    (currentLossInfo (runEvals p k1s z calls .init) = .ok none ↔ returned p k1s z calls .init = []) ∧
    ∀ v, (returned p k1s z calls .init).getLast? = some v → ∃ (info : LossInfo) (p1 p2 reg : Fl),
      currentLossInfo (runEvals p k1s z calls .init) = .ok (some info) ∧ info.totalCurrent = v ∧
      v = info.mseCurrent + info.coherenceCurrent + p1 + p2 + reg ∧
      (runEvals p k1s z calls .init).hist.mse.getLast? = some info.mseCurrent ∧
      (runEvals p k1s z calls .init).hist.coherence.getLast? = some info.coherenceCurrent ∧
      (runEvals p k1s z calls .init).hist.pen1.getLast? = some p1 ∧
      (runEvals p k1s z calls .init).hist.pen2.getLast? = some p2 ∧
      (runEvals p k1s z calls .init).hist.regularization.getLast? = some reg := by
  obtain ⟨al, ht⟩ := C33_aligned p k1s z calls
  set S := runEvals p k1s z calls .init with hS
  have some_last : ∀ l : List Fl, l ≠ [] → ∃ x, l.getLast? = some x := fun l hl =>
    ⟨_, List.getLast?_eq_some_getLast hl⟩
  constructor
  · rw [← ht]
    unfold currentLossInfo
    by_cases h : S.total = []
    · simp [h]
    · rw [if_neg h]
      have hl : S.hist.mse ≠ [] := fun h' => h (List.length_eq_zero_iff.1 (by rw [al.total, h']; rfl))
      have hc : S.hist.coherence ≠ [] := fun h' => hl (List.length_eq_zero_iff.1 (by rw [← al.coherence, h']; rfl))
      obtain ⟨m, hm⟩ := some_last _ hl
      obtain ⟨c, hc⟩ := some_last _ hc
      obtain ⟨t, ht⟩ := some_last _ h
      simp [hm, hc, ht, h]
  · intro v hv
    rw [← ht] at hv
    have hT : S.total ≠ [] := fun h => by rw [h] at hv; simp at hv
    have hl : S.hist.mse ≠ [] := fun h' => hT (List.length_eq_zero_iff.1 (by rw [al.total, h']; rfl))
    have hpos : 0 < S.hist.mse.length := List.length_pos_of_ne_nil hl
    have last : ∀ l : List Fl, l.length = S.hist.mse.length → ∃ (hh : S.hist.mse.length - 1 < l.length),
        l.getLast? = some (l[S.hist.mse.length - 1]'hh) := by
      intro l hlen
      refine ⟨by omega, ?_⟩
      rw [List.getLast?_eq_getElem?, List.getElem?_eq_getElem (by omega)]
      simp only [hlen]
    obtain ⟨_, hm⟩ := last _ rfl
    obtain ⟨_, hc⟩ := last _ al.coherence
    obtain ⟨_, h1⟩ := last _ al.pen1
    obtain ⟨_, h2⟩ := last _ al.pen2
    obtain ⟨_, h3⟩ := last _ al.regularization
    obtain ⟨_, h4⟩ := last _ al.total
    refine ⟨⟨_, _, v, S.avg.mse, S.avg.coherence, S.avg.mse / pyMax S.avg.coherence (fin 1e-8)⟩, _, _, _, ?_, rfl, ?_, hm, hc,
      h1, h2, h3⟩
    · unfold currentLossInfo
      rw [if_neg hT, hm, hc, hv]
    · rw [h4] at hv
      rw [← Option.some.inj hv]
      exact al.sums _ (by omega)

/-- **C115** The reported averages are the exponential moving averages of the recorded terms, and the reported ratio is
their quotient with the coherence average replaced by `1e-8` when it is smaller; without coherence data it is therefore
`10^8` times the average misfit. -/
theorem C115_averages (p : LossParams) (k1s : List ℝ) {z : ℝ} (calls : List EvalArgs) {lm lc : List ℝ}
    (hm : (runEvals p k1s z calls .init).hist.mse = lm.map fin)
    (hc : (runEvals p k1s z calls .init).hist.coherence = lc.map fin) {info : LossInfo}
    (h : currentLossInfo (runEvals p k1s z calls .init) = .ok (some info)) :
    info.mseAvg = fin (Spec.ema lm) ∧ info.coherenceAvg = fin (Spec.ema lc) ∧
    info.ratio = fin (Spec.ema lm / max (Spec.ema lc) 1e-8) ∧
    ((∀ x ∈ lc, x = 0) → info.ratio = fin (10 ^ 8 * Spec.ema lm)) := by
  obtain ⟨al, -⟩ := C33_aligned p k1s z calls
  set S := runEvals p k1s z calls .init with hS
  have hT : S.total ≠ [] := by
    intro h'
    unfold currentLossInfo at h
    rw [if_pos h'] at h
    simp at h
  have hl : S.hist.mse ≠ [] := fun h' => hT (List.length_eq_zero_iff.1 (by rw [al.total, h']; rfl))
  have hlc : S.hist.coherence ≠ [] := fun h' => hl (List.length_eq_zero_iff.1 (by rw [← al.coherence, h']; rfl))
  have hlm : lm ≠ [] := fun h' => hl (by rw [hm, h']; rfl)
  have hlc' : lc ≠ [] := fun h' => hlc (by rw [hc, h']; rfl)
  have em : S.avg.mse = fin (Spec.ema lm) := C34_ema p k1s z calls .mse hm hlm
  have ec : S.avg.coherence = fin (Spec.ema lc) := C34_ema p k1s z calls .coherence hc hlc'
  have hinfo : info.mseAvg = S.avg.mse ∧ info.coherenceAvg = S.avg.coherence ∧
      info.ratio = S.avg.mse / pyMax S.avg.coherence (fin 1e-8) := by
    unfold currentLossInfo at h
    rw [if_neg hT] at h
    split at h
    · simp only [Except.ok.injEq, Option.some.injEq] at h
      rw [← h]
      exact ⟨rfl, rfl, rfl⟩
    · simp at h
  obtain ⟨h1, h2, h3⟩ := hinfo
  have hmax : pyMax (fin (Spec.ema lc)) (fin 1e-8) = fin (max (Spec.ema lc) 1e-8) := by
    unfold pyMax
    by_cases hlt : Spec.ema lc < 1e-8
    · rw [if_pos (by rw [lt_fin]; exact hlt), max_eq_right hlt.le]
    · rw [if_neg (by rw [lt_fin]; exact hlt), max_eq_left (not_lt.1 hlt)]
  have h4 : info.ratio = fin (Spec.ema lm / max (Spec.ema lc) 1e-8) := by
    rw [h3, em, ec, hmax, fin_div_fin _ (ne_of_gt (lt_of_lt_of_le (by norm_num) (le_max_right _ _)))]
  refine ⟨h1.trans em, h2.trans ec, h4, fun hz => ?_⟩
  have : Spec.ema lc = 0 := by
    have := Spec.ema_mem_Icc hlc' (a := 0) (b := 0) fun x hx => by rw [hz x hx]; exact ⟨le_rfl, le_rfl⟩
    exact le_antisymm this.2 this.1
  rw [h4, this, max_eq_right (by norm_num)]
  congr 1
  norm_num
  ring

/-! ### A fit to which all of this applies -/

theorem closure_total {cfg : TrainCfg} {θ : List ℝ} {st st' : TrainState} {l : Fl} (h : closure cfg θ st = (.ok l, st')) :
    st'.agg.total = st.agg.total ++ [l] ∧ st'.loss = l ∧ st'.eCount = st.eCount + 1 := by
  unfold closure at h
  simp only at h
  split at h
  · simp at h
  · split at h
    · simp at h
    · split at h
      · simp at h
      · rename_i l' agg hl
        simp only [Prod.mk.injEq, Except.ok.injEq] at h
        obtain ⟨rfl, rfl⟩ := h
        refine ⟨?_, rfl, rfl⟩
        unfold lossEval at hl
        split at hl
        · simp at hl
        · simp only [Prod.mk.injEq, Except.ok.injEq] at hl
          obtain ⟨h1, h2⟩ := hl
          rw [← h2, ← h1]

/-- Epochs of a fit whose optimiser proposes the same parameters over and over. -/
theorem epochs_repeat (cfg : TrainCfg) {n : ℕ} {k : ℕ → ℝ} {t : ℕ → ℕ → ℝ} (hF : Spec.FitSetting cfg n k t) {a b : ℕ}
    {r f : ℕ → ℝ} {D : Fin 3 → ℕ → ℕ → ℝ} (hle : cfg.prob.learnable = true) (hln : cfg.prob.learnNu = false)
    (htol : cfg.prob.tol < 0) (hz : 0 ≤ cfg.phys.zref) (hb : cfg.loss.betaReg ≤ 0) (θ : List ℝ) (N : ℕ) :
    ∀ e (st : TrainState), e + N ≤ 50 → 0 < e → st.ops.grid.Pairwise (· < ·) → 2 ≤ st.ops.grid.length →
      Spec.cohSetting cfg st.ops.cohGrid a b r f D → (cfg.coh = none ∨ st.ops.cohGrid ≠ none) → st.ops.kind = .const →
      θ.length = (st.ops.paramVec false).length → (∀ v ∈ st.agg.total, v.IsFin) →
      ∃ st', runEpochs cfg (fun _ => ⟨[θ], θ⟩) e N st = (.ok (), st') ∧ st'.eCount = st.eCount + N ∧
        ∀ v ∈ st'.agg.total, v.IsFin := by
  induction N with
  | zero =>
    intro e st _ _ _ _ _ _ _ _ hfin
    exact ⟨st, rfl, rfl, hfin⟩
  | succ N ih =>
    intro e st he he0 hg h2 hc hcg hk hlen hfin
    have hset := archG_closure (cfg := cfg) (ln := false) hln (θ := θ) (st := st) hcg hlen
    have hkind : ∀ o : OPS, o.kind = .const → o.params.LifetimeFinite := fun o h => by
      have : o.Sound := by unfold OPS.Sound; rw [h]; trivial
      exact this.finite
    have hks : (st.ops.setVec cfg.prob.learnNu θ).kind = .const := by
      show (match st.ops.kind with
        | .taunet net => EddyKind.taunet (net.setVec cfg.prob.learnNu (θ.drop st.ops.headLen))
        | k => k) = _
      rw [hk]
    have hobj := closure_objective cfg hF st hg h2 hc θ (hkind _ hks) fun h => absurd h (not_lt.2 hb)
    rcases hcl : closure cfg θ st with ⟨rc, st1⟩
    rw [hcl] at hobj hset
    simp only at hobj hset
    subst hobj
    obtain ⟨t1, t2, t3⟩ := closure_total hcl
    set v := Spec.objective cfg n k t a b r f D (st.ops.setVec cfg.prob.learnNu θ) with hv
    have hv0 : 0 ≤ v := by
      have hcl' := hcl
      unfold closure at hcl'
      simp only at hcl'
      split at hcl'
      · simp at hcl'
      · split at hcl'
        · simp at hcl'
        · rename_i y _ _ _ coh ops2 _
          have h32 := C32_never_nan cfg.loss cfg.k1s hz ⟨y.take cfg.prob.nc.toNat, cfg.target, genTheta cfg ops2, coh⟩ st.agg
          split at hcl'
          · simp at hcl'
          · rename_i l agg hl
            simp only [Prod.mk.injEq, Except.ok.injEq] at hcl'
            rw [hl, hcl'.1] at h32
            rcases h32 with ⟨e, h⟩ | h | ⟨w, hw, h⟩
            · simp at h
            · simp at h
            · simp only [Except.ok.injEq, Fl.fin.injEq] at h
              rw [h]; exact hw
    have hep : runEpoch cfg e ⟨[θ], θ⟩ st =
        (.ok false, { st1 with ops := st1.ops.setVec cfg.prob.learnNu θ, epochLoss := st1.epochLoss ++ [st1.loss] }) := by
      unfold runEpoch closures closures
      rw [hcl]
      simp only
      rw [if_neg (by simp [hle]), if_neg (by rw [t2]; simp), if_neg (by rw [t2, lt_fin]; linarith), if_neg (by omega)]
    have hlen1 : θ.length = (st1.ops.paramVec false).length := by rw [hset.arch.length]; exact hlen
    have hA : ArchG false (st1.ops.setVec cfg.prob.learnNu θ) st.ops := by
      rw [hln]
      exact ArchG.trans ⟨Arch.setVec st1.ops θ hlen1, rfl, rfl⟩ hset
    have hk2 : (st1.ops.setVec cfg.prob.learnNu θ).kind = .const := by
      have := hA.arch.kind
      rw [hk] at this
      revert this
      cases (st1.ops.setVec cfg.prob.learnNu θ).kind <;> simp [KindShape]
    obtain ⟨st', g1, g2, g3⟩ := ih (e + 1)
      { st1 with ops := st1.ops.setVec cfg.prob.learnNu θ, epochLoss := st1.epochLoss ++ [st1.loss] }
      (by omega) (by omega) (by simp only [hA.grid]; exact hg) (by simp only [hA.grid]; exact h2)
      (by simp only [hA.coh]; exact hc) (by simp only [hA.coh]; exact hcg) hk2 (by simp only; rw [hA.arch.length]; exact hlen)
      (by
        intro w hw
        simp only at hw
        rw [t1] at hw
        rcases List.mem_append.1 hw with h | h
        · exact hfin w h
        · rw [List.mem_singleton.1 h]; trivial)
    refine ⟨st', ?_, ?_, g3⟩
    · unfold runEpochs
      rw [hep]
      exact g1
    · rw [g2]
      simp only [t3]
      omega

theorem hist_mse_prefix (p : LossParams) (k1s : List ℝ) (z : ℝ) (calls : List EvalArgs) (s : LossState) :
    ∃ l, (runEvals p k1s z calls s).hist.mse = s.hist.mse ++ l := by
  induction calls generalizing s with
  | nil => exact ⟨[], by simp [runEvals]⟩
  | cons a calls ih =>
    obtain ⟨l, hl⟩ := ih (lossEval p k1s z a s).2
    have e : ∃ m, (lossEval p k1s z a s).2.hist.mse = s.hist.mse ++ m := by
      unfold lossEval
      rcases evalTerms p k1s z a with e | v
      · exact ⟨[], by simp⟩
      · exact ⟨[v.mse], rfl⟩
    obtain ⟨m, hm⟩ := e
    refine ⟨m ++ l, ?_⟩
    show (runEvals p k1s z calls (lossEval p k1s z a s).2).hist.mse = _
    rw [hl, hm, List.append_assoc]

theorem isFin_of_add {a b : Fl} (ha : Ge0 a) (hb : Ge0 b) (h : (a + b).IsFin) : a.IsFin ∧ b.IsFin := by
  rcases ha with rfl | ⟨x, -, rfl⟩ <;> rcases hb with rfl | ⟨y, -, rfl⟩ <;> simp_all

/-- Finite losses have finite terms. -/
theorem finite_histories (p : LossParams) (k1s : List ℝ) {z : ℝ} (hz : 0 ≤ z) (calls : List EvalArgs)
    (h : ∀ v ∈ (runEvals p k1s z calls .init).total, v.IsFin) :
    ∃ L : LossKey → List ℝ, ∀ key : LossKey, key.get (runEvals p k1s z calls .init).hist = (L key).map fin := by
  obtain ⟨al, -⟩ := C33_aligned p k1s z calls
  have ge := fun key => (eval_key_ge0 p k1s hz calls key).1
  set S := runEvals p k1s z calls .init with hS
  refine ⟨fun key => (key.get S.hist).map Fl.toReal, fun key => ?_⟩
  rw [List.map_map]
  refine (List.map_congr_left (g := id) fun x hx => ?_).trans (List.map_id _) |>.symm
  obtain ⟨i, hi, rfl⟩ := List.getElem_of_mem hx
  have hi' : i < S.hist.mse.length := by
    cases key <;> simp only [LossKey.get] at hi
    · exact hi
    · rw [← al.coherence]; exact hi
    · rw [← al.pen1]; exact hi
    · rw [← al.pen2]; exact hi
    · rw [← al.regularization]; exact hi
  have hsum := al.sums i hi'
  have ht := h _ (List.getElem_mem (l := S.total) (n := i) (by rw [al.total]; exact hi'))
  rw [hsum] at ht
  have m1 := ge .mse _ (List.getElem_mem (l := S.hist.mse) (n := i) hi')
  have m2 := ge .coherence _ (List.getElem_mem (l := S.hist.coherence) (n := i) (by rw [al.coherence]; exact hi'))
  have m3 := ge .pen1 _ (List.getElem_mem (l := S.hist.pen1) (n := i) (by rw [al.pen1]; exact hi'))
  have m4 := ge .pen2 _ (List.getElem_mem (l := S.hist.pen2) (n := i) (by rw [al.pen2]; exact hi'))
  have m5 := ge .regularization _
    (List.getElem_mem (l := S.hist.regularization) (n := i) (by rw [al.regularization]; exact hi'))
  have key' : (key.get S.hist)[i].IsFin := by
    obtain ⟨ht, f5⟩ := isFin_of_add (((m1.add m2).add m3).add m4) m5 ht
    obtain ⟨ht, f4⟩ := isFin_of_add ((m1.add m2).add m3) m4 ht
    obtain ⟨ht, f3⟩ := isFin_of_add (m1.add m2) m3 ht
    obtain ⟨f1, f2⟩ := isFin_of_add m1 m2 ht
    cases key
    · exact f1
    · exact f2
    · exact f3
    · exact f4
    · exact f5
  show fin (Fl.toReal _) = id _
  revert key'
  cases (key.get S.hist)[i] <;> simp [Fl.toReal]

/-- A fit with `N < 50` closure evaluations, coherence data and a positive initial misfit, for every object with constant
lifetime and learnable spectrum. -/
theorem fit_example (s : OPS) (hs : s.cohGrid = none) (hk : s.kind = .const) {p q : ℝ} (hsp : s.sp = .learnable p q)
    (hg : s.grid.Pairwise (· < ·)) (h2 : 2 ≤ s.grid.length) (N : ℕ) (hN : N < 50) :
    ∃ (cfg : TrainCfg) (opt : ℕ → OptStep) (r : Calibrated) (st : TrainState) (L : LossKey → List ℝ),
      0 ≤ cfg.phys.zref ∧ calibrate cfg opt s = (.ok r, st) ∧ st.eCount = N ∧ 0 < cfg.loss.gammaCoherence ∧
      cfg.coh.isSome ∧ (∀ key : LossKey, key.get st.agg.hist = (L key).map fin) ∧ 0 < (L .mse).getD 0 0 := by
  have hsound : ∀ o : OPS, o.kind = .const → o.params.LifetimeFinite := fun o h => by
    have : o.Sound := by unfold OPS.Sound; rw [h]; trivial
    exact this.finite
  set G := cohFallbackGrid (Real.exp s.logL) with hG
  have gG := C22_grids (Real.exp_pos s.logL)
  rw [← hG] at gG
  let phys : PhysCfg := ⟨1, 1, 1, 1, 1, 1, 1⟩
  let D : Fin 3 → ℕ → ℕ → ℝ := fun _ _ _ => 0
  let co : CohFit := ⟨(List.range 1).map fun _ => 1, (List.range 1).map fun _ => 1, Spec.table 1 1 fun i j => fin (D 0 i j),
      Spec.table 1 1 fun i j => fin (D 1 i j), Spec.table 1 1 fun i j => fin (D 2 i j)⟩
  let k : ℕ → ℝ := fun j => (j : ℝ) + 1
  have hkpos : ∀ j < 3, 0 < k j := fun j _ => by positivity
  let c : ℕ → ℕ → ℝ := fun i j => Spec.cell (OPS.forward ((List.range 3).map k) s).1 i j
  have hc : ∀ i < 3, ∀ j < 3, 0 < c i j := fun i hi j hj => forward_cell_pos s (hsound _ hk) hg h2 hkpos hi hj
  let cfg : TrainCfg := ⟨⟨3, -1, N, false, .const, false, true, 4, 17 / 6⟩, phys, ⟨0, 0, 0, 1⟩,
    (List.range 3).map k, Spec.table 3 3 fun i j => fin (2 * c i j), some co⟩
  have ht0 : ∀ i < 3, ∀ j < 3, 2 * c i j ≠ 0 := fun i hi j hj => by have := hc i hi j hj; positivity
  have hF : Spec.FitSetting cfg 3 k fun i j => 2 * c i j :=
    ⟨rfl, le_rfl, ⟨hkpos, fun j _ => by simp only [k]; push_cast; linarith⟩, rfl, rfl, ht0, one_ne_zero⟩
  obtain ⟨st, hst, hgst⟩ := start_ok cfg hF s (hsound _ hk) hg h2 le_rfl le_rfl le_rfl
  have harch := arch_start false cfg s
  rw [hst] at harch
  have hcg : st.ops.cohGrid = some G := by
    rcases start_grid hst with h4 | h4
    · simp [cfg] at h4
    · rw [h4]
      simp [OPS.cohGridUsed, hs, hG]
  have sett : Spec.cohSetting cfg st.ops.cohGrid 1 1 (fun _ => 1) (fun _ => 1) D :=
    Or.inr ⟨_, hcg, gG.1, by rw [gG.2.1]; norm_num, by norm_num, one_pos, one_pos, one_pos, rfl⟩
  have hkst : st.ops.kind = .const := by
    have := harch.kind
    rw [hk] at this
    revert this
    cases st.ops.kind <;> simp [KindShape]
  have hmis : 0 < Spec.tableMisfit 3 3 c fun i j => 2 * c i j := by
    have : ∀ i < 3, ∀ j < 3, (Real.log |c i j| - Real.log |2 * c i j|) ^ 2 = Real.log 2 ^ 2 := by
      intro i hi j hj
      have h := hc i hi j hj
      rw [abs_of_pos h, abs_of_pos (by positivity), Real.log_mul two_ne_zero h.ne']
      ring
    unfold Spec.tableMisfit Spec.mean2
    rw [Finset.sum_congr rfl fun i hi => Finset.sum_congr rfl fun j hj =>
      this i (Finset.mem_range.1 hi) j (Finset.mem_range.1 hj)]
    have h2 : 0 < Real.log 2 := Real.log_pos one_lt_two
    simp only [Finset.sum_const, Finset.card_range, nsmul_eq_mul]
    positivity
  -- the initial evaluation
  have init : ∀ a : EvalArgs, a.InitialCall cfg s → evalTerms cfg.loss cfg.k1s cfg.phys.zref a =
      .ok ⟨fin (Spec.tableMisfit 3 3 c fun i j => 2 * c i j), fin 0, fin 0, fin 0, fin 0⟩ := by
    intro a ha
    obtain ⟨y, hy, hay⟩ := ha.y
    obtain ⟨y', hy', hy3⟩ := forward_take_table s (hsound _ hk) 3 hkpos
    have : y = y' := by
      have h5 : (OPS.forward ((List.range 3).map k) s).1 = .ok y := hy
      rw [hy'] at h5
      exact (Except.ok.inj h5).symm
    subst this
    refine evalTerms_ok.2 ⟨?_, ?_, ?_, ?_, ?_⟩
    · rw [hay, ha.target]
      show mseTerm (y.take 3) _ = _
      rw [hy3]
      exact mseTerm_table (by norm_num) (by norm_num) (fun i hi j hj => (hc i hi j hj).ne') ht0
    · unfold cohTerm; rw [ha.coherence]
    · simp [pen1Term, cfg]
    · simp [pen2Term, cfg]
    · unfold regTerm
      cases a.theta <;> simp [cfg]
  have hfin : ∀ v ∈ st.agg.total, v.IsFin := by
    have h0 : calibrate { cfg with prob := { cfg.prob with nepochs := 0 } } (fun _ => ⟨[], []⟩) s =
        (.ok (calibratedParams true (st.ops.paramVec false)), st) := by
      unfold calibrate
      have : calibrateStart { cfg with prob := { cfg.prob with nepochs := 0 } } s = (.ok (), st) := hst
      rw [this]
      rfl
    obtain ⟨a0, as, i1, -, i3, i4, i5, -⟩ := calibrate_run h0
    rw [(calibrateStart_ghost hst).2.2] at i3
    have has : as = [] := List.length_eq_zero_iff.1 i3.symm
    subst has
    have i6 := init a0 ⟨i1.theta, i1.coherence, i1.y, i1.target⟩
    intro v hv
    rw [i5] at hv
    have : (runEvals cfg.loss cfg.k1s cfg.phys.zref [a0] .init).total =
        [fin (Spec.tableMisfit 3 3 c fun i j => 2 * c i j) + fin 0 + fin 0 + fin 0 + fin 0] := by
      show (lossEval cfg.loss cfg.k1s cfg.phys.zref a0 .init).2.total = _
      unfold lossEval
      rw [i6]
      rfl
    have hv' : v ∈ (runEvals cfg.loss cfg.k1s cfg.phys.zref [a0] .init).total := hv
    rw [this, List.mem_singleton] at hv'
    rw [hv']
    trivial
  set θ : List ℝ := st.ops.paramVec false with hθ
  obtain ⟨st', g1, g2, g3⟩ := epochs_repeat cfg hF rfl rfl (by norm_num [cfg]) zero_le_one le_rfl θ N 1 st (by omega) one_pos
    (by rw [hgst]; exact hg) (by rw [hgst]; exact h2) sett (Or.inr (by rw [hcg]; simp)) hkst rfl hfin
  have hrun : calibrate cfg (fun _ => ⟨[θ], θ⟩) s = (.ok (calibratedParams true (st'.ops.paramVec false)), st') := by
    unfold calibrate
    rw [hst]
    simp only
    rw [show cfg.prob.nepochs = N from rfl, g1]
  obtain ⟨a0, as, i1, -, i3, i4, i5, -⟩ := calibrate_run hrun
  rw [i5] at g3
  obtain ⟨L, hL⟩ := finite_histories _ _ zero_le_one _ g3
  refine ⟨cfg, _, _, st', L, zero_le_one, hrun, ?_, one_pos, rfl, ?_, ?_⟩
  · rw [g2, (calibrateStart_ghost hst).2.2, zero_add]
  · rw [i5]; exact hL
  · obtain ⟨l, hl⟩ := hist_mse_prefix cfg.loss cfg.k1s cfg.phys.zref as (lossEval cfg.loss cfg.k1s cfg.phys.zref a0 .init).2
    have e1 : (lossEval cfg.loss cfg.k1s cfg.phys.zref a0 .init).2.hist.mse =
        [fin (Spec.tableMisfit 3 3 c fun i j => 2 * c i j)] := by
      unfold lossEval
      rw [init a0 i1]
      rfl
    have e2 := hL .mse
    have e3 : (runEvals cfg.loss cfg.k1s cfg.phys.zref (a0 :: as) .init).hist.mse = _ := hl
    simp only [LossKey.get] at e2
    rw [e3, e1] at e2
    cases hLm : L .mse with
    | nil => rw [hLm] at e2; simp at e2
    | cons v l' =>
      rw [hLm] at e2
      simp only [List.cons_append, List.nil_append, List.map_cons, List.cons.injEq, Fl.fin.injEq] at e2
      rw [List.getD_cons_zero, ← e2.1]
      exact hmis

/-- `C114_failed` with a finite misfit and a NaN in the coherence data. -/
example (s : LossState) : (lossEvalLog ⟨0, 0, 0, 1⟩ [1] 1 0 ⟨[[fin 1]], [[fin 1]], .none,
    some ⟨[[fin 1]], [[fin 1]], [[fin 1]], [[nan]], [[fin 1]], [[fin 1]]⟩⟩ s).1.1 = .error .valueError := by
  have h0 : Fl.log (Fl.abs (fin 1 / fin 1)) = fin 0 := by
    rw [fin_div_fin _ one_ne_zero, div_one]
    show Fl.log (fin |1|) = fin 0
    rw [abs_one, log_fin one_pos, Real.log_one]
  have h1 : mseLog 0 [[fin 1]] [[fin 1]] = (.ok (fin 0), [⟨"MSE Loss", fin 0, 0⟩]) := by
    have e : flMean (zipFlat (fun m t => Fl.log (Fl.abs (m / t)) * Fl.log (Fl.abs (m / t))) [[fin 1]] [[fin 1]]) = fin 0 := by
      have h0' : (fin 1).log = fin 0 := by rw [log_fin one_pos, Real.log_one]
      simp [flMean, zipFlat, h0', zero_def, fin_div_fin]
    unfold mseLog
    rw [if_pos (by simp [sameShape])]
    simp only [e]
    simp [raiseIfNan, Fl.IsNan]
  have h2 : cohTermLog ⟨0, 0, 0, 1⟩ 0 ⟨[[fin 1]], [[fin 1]], .none,
      some ⟨[[fin 1]], [[fin 1]], [[fin 1]], [[nan]], [[fin 1]], [[fin 1]]⟩⟩ = (.error .valueError,
      (cohTermLog ⟨0, 0, 0, 1⟩ 0 ⟨[[fin 1]], [[fin 1]], .none,
      some ⟨[[fin 1]], [[fin 1]], [[fin 1]], [[nan]], [[fin 1]], [[fin 1]]⟩⟩).2) := by
    have e : msd [[fin 1]] [[nan]] = nan := rfl
    refine Prod.ext ?_ rfl
    simp only [cohTermLog, if_pos one_pos, coherenceLog]
    rw [if_pos (by simp [sameShape])]
    simp only [e, nan_add, nan_div, mul_nan]
    exact if_pos (isNan_iff.2 rfl)
  unfold lossEvalLog
  simp only [h1]
  rw [h2]

/-- An evaluation with a NaN in the prediction. -/
example : sameShape [[fin 1, nan]] [[fin 1, fin 2]] ∧ ∃ row ∈ [[fin 1, nan]], nan ∈ row := ⟨rfl, by simp⟩

/-- **C114** `plot_losses(run)` draws the log of file number `run` of the directory, negative numbers counting from the end, and raises
`IndexError` for any other number, `AssertionError` without a logging directory and `FileNotFoundError` if it does not exist. -/
theorem C114_run (l : List (List LogEvent)) (run : ℤ) :
    (∀ i (h : i < l.length), plotLosses (.files l) i = plotLossLogs l[i] ∧
      plotLosses (.files l) (i - l.length) = plotLossLogs l[i]) ∧
    (run < -l.length ∨ (l.length : ℤ) ≤ run → plotLosses (.files l) run = .error .indexError) ∧
    plotLosses .unset run = .error .assertionError ∧ plotLosses .missing run = .error .fileNotFoundError := by
  refine ⟨fun i h => ⟨?_, ?_⟩, fun h => ?_, rfl, rfl⟩
  · unfold plotLosses
    simp only
    rw [if_neg (by omega : ¬ ((i : ℤ) < 0)), if_neg (by omega : ¬ ((i : ℤ) < 0)), Int.toNat_natCast, List.getElem?_eq_getElem h]
  · unfold plotLosses
    simp only
    have e : (i : ℤ) - l.length + l.length = i := by ring
    rw [if_pos (by omega : (i : ℤ) - l.length < 0), e, if_neg (by omega : ¬ ((i : ℤ) < 0)), Int.toNat_natCast,
      List.getElem?_eq_getElem h]
  · unfold plotLosses
    simp only
    rcases h with h | h
    · rw [if_pos (by omega : run < 0), if_pos (by omega)]
    · rw [if_neg (by omega : ¬ run < 0), if_neg (by omega : ¬ run < 0), List.getElem?_eq_none (by omega)]

end
end Verif
