import Verif.Model.NN
import Mathlib.Algebra.BigOperators.Group.List.Basic
import Mathlib.Tactic.Ring

/-!
# C08: TauNet construction
-/

set_option linter.unusedSimpArgs false

namespace Verif

/-- Specification: number of weights of a bias-free fully connected chain with the given layer widths. -/
def Spec.chainWeights : List Nat → Nat
  | a :: b :: t => a * b + Spec.chainWeights (b :: t)
  | _ => 0

/-- Specification: the hidden widths requested by the two arguments. -/
def Spec.widths (n : Int) : SizesArg → List Nat
  | .int h => List.replicate n.toNat h.toNat
  | .list l => l.map Int.toNat

/-- Specification of the documented argument domain. -/
def Spec.validTauNet (n : Int) (sizes : SizesArg) (acts : ActsArg) : Prop :=
  0 < n ∧
  (match sizes with
    | .int h => 0 < h
    | .list l => (l.length : Int) = n ∧ ∀ s ∈ l, 0 < s) ∧
  (match acts with
    | .none => True
    | .module => True
    | .list l => (l.length : Int) = n ∧ ∀ b ∈ l, b = true
    | .other => False)

theorem chainWeights_eq (a : Nat) (h : Nat) (t : List Nat) (z : Nat) :
    Spec.chainWeights (a :: (h :: t) ++ [z]) =
      a * h + ((List.range t.length).map fun i => (h :: t).getD i 0 * (h :: t).getD (i + 1) 0).sum +
        (h :: t).getLastD 0 * z := by
  induction t generalizing a h with
  | nil => simp [Spec.chainWeights]
  | cons b t ih =>
    have := ih h b
    simp only [List.cons_append] at this ⊢
    rw [Spec.chainWeights, this, List.length_cons, List.range_succ_eq_map]
    simp only [List.map_cons, List.map_map, List.sum_cons]
    have e : ((fun i => (h :: b :: t).getD i 0 * (h :: b :: t).getD (i + 1) 0) ∘ Nat.succ) =
        fun i => (b :: t).getD i 0 * (b :: t).getD (i + 1) 0 := by
      funext i; simp
    have e2 : (h :: b :: t).getLastD 0 = (b :: t).getLastD 0 := by simp
    rw [e, e2]
    simp only [List.getD_cons_zero, List.getD_cons_succ]
    ring

/-- **C08** Outside the documented domain the constructor raises `ValueError`. -/
theorem C08_rejects (n : Int) (sizes : SizesArg) (acts : ActsArg) (h : ¬ Spec.validTauNet n sizes acts) :
    tauNetInit (some n) sizes acts = .error .valueError := by
  unfold Spec.validTauNet at h
  unfold tauNetInit
  by_cases hn : n ≤ 0
  · simp [hn, bind, Except.bind, throw, throwThe, MonadExceptOf.throw]
  have hn' : 0 < n := by omega
  simp only [hn', true_and] at h
  rcases sizes with s | l
  · by_cases hs : s ≤ 0
    · simp [hn, hs, bind, Except.bind, throw, throwThe, MonadExceptOf.throw, pure, Except.pure]
    · have hs' : 0 < s := by omega
      simp only [hs', true_and] at h
      rcases acts with _ | _ | al | _
      · exact absurd trivial h
      · exact absurd trivial h
      · by_cases hl : (al.length : Int) = n
        · have : al.any (fun b => !b) = true := by
            by_contra hc
            apply h
            refine ⟨hl, fun b hb => ?_⟩
            by_contra hb'
            exact hc (List.any_eq_true.2 ⟨b, hb, by simpa using hb'⟩)
          simp [hn, hs, hl, this, bind, Except.bind, throw, throwThe, MonadExceptOf.throw, pure, Except.pure]
        · simp [hn, hs, hl, bind, Except.bind, throw, throwThe, MonadExceptOf.throw, pure, Except.pure]
      · simp [hn, hs, bind, Except.bind, throw, throwThe, MonadExceptOf.throw, pure, Except.pure]
  · by_cases hl : (l.length : Int) = n
    · by_cases ha : l.any (fun s => decide (s ≤ 0)) = true
      · simp [hn, hl, ha, bind, Except.bind, throw, throwThe, MonadExceptOf.throw, pure, Except.pure]
      · have hp : ∀ s ∈ l, 0 < s := by
          intro s hs
          by_contra hc
          exact ha (List.any_eq_true.2 ⟨s, hs, by simpa using hc⟩)
        simp only [hl, true_and] at h
        rcases acts with _ | _ | al | _
        · exact absurd ⟨hp, trivial⟩ h
        · exact absurd ⟨hp, trivial⟩ h
        · by_cases hl' : (al.length : Int) = n
          · have : al.any (fun b => !b) = true := by
              by_contra hc
              apply h
              refine ⟨hp, hl', fun b hb => ?_⟩
              by_contra hb'
              exact hc (List.any_eq_true.2 ⟨b, hb, by simpa using hb'⟩)
            simp [hn, hl, ha, hl', this, bind, Except.bind, throw, throwThe, MonadExceptOf.throw, pure, Except.pure]
          · simp [hn, hl, ha, hl', bind, Except.bind, throw, throwThe, MonadExceptOf.throw, pure, Except.pure]
        · simp [hn, hl, ha, bind, Except.bind, throw, throwThe, MonadExceptOf.throw, pure, Except.pure]
    · simp [hn, hl, bind, Except.bind, throw, throwThe, MonadExceptOf.throw, pure, Except.pure]

theorem tauNetNumel_chain (n : Nat) (hs : List Nat) (h : hs.length = n + 1) (learnNu : Bool) :
    tauNetNumel ([(3, hs.headD 0)] ++ (List.range (n + 1 - 1)).map (fun i => (hs.getD i 0, hs.getD (i + 1) 0)) ++
      [(hs.getLastD 0, 3)]) learnNu = Spec.chainWeights (3 :: hs ++ [3]) + (if learnNu then 1 else 0) := by
  cases hs with
  | nil => simp at h
  | cons a t =>
    rw [chainWeights_eq]
    simp only [List.length_cons, Nat.add_right_cancel_iff] at h
    unfold tauNetNumel
    subst h
    simp [Function.comp_def]
    ring

/-- **C08** On the documented domain the constructor succeeds, and the number of trainable scalars is the number of
weights of the chain `3, h_1, ..., h_n, 3`, plus one iff `nu` is learned. -/
theorem C08_accepts (n : Int) (sizes : SizesArg) (acts : ActsArg) (h : Spec.validTauNet n sizes acts)
    (learnNu : Bool) :
    ∃ shapes, tauNetInit (some n) sizes acts = .ok shapes ∧
      tauNetNumel shapes learnNu =
        Spec.chainWeights (3 :: Spec.widths n sizes ++ [3]) + (if learnNu then 1 else 0) := by
  obtain ⟨hn, hs, ha⟩ := h
  obtain ⟨m, rfl⟩ : ∃ m : Nat, n = (m : Int) + 1 := ⟨(n - 1).toNat, by omega⟩
  have hn' : ¬ ((m : Int) + 1 ≤ 0) := by omega
  have ht : ((m : Int) + 1).toNat = m + 1 := by omega
  have key : ∀ hs : List Int, hs.length = m + 1 →
      tauNetNumel ([(3, (hs.map Int.toNat).headD 0)] ++ (List.range (m + 1 - 1)).map
        (fun i => ((hs.map Int.toNat).getD i 0, (hs.map Int.toNat).getD (i + 1) 0)) ++
        [((hs.map Int.toNat).getLastD 0, 3)]) learnNu =
        Spec.chainWeights (3 :: hs.map Int.toNat ++ [3]) + (if learnNu then 1 else 0) :=
    fun hs h => tauNetNumel_chain m _ (by simpa using h) learnNu
  have hok : ∀ hs : List Int, (match sizes with
      | .int h => List.replicate (m + 1) h
      | .list l => l) = hs → tauNetInit (some ((m : Int) + 1)) sizes acts =
        .ok ([(3, (hs.map Int.toNat).headD 0)] ++ (List.range (m + 1 - 1)).map
        (fun i => ((hs.map Int.toNat).getD i 0, (hs.map Int.toNat).getD (i + 1) 0)) ++
        [((hs.map Int.toNat).getLastD 0, 3)]) := by
    rintro hl rfl
    unfold tauNetInit
    rcases sizes with s | l
    · have h1 : ¬ s ≤ 0 := by simpa using hs
      rcases acts with _ | _ | al | _
      · simp only [hn', h1, if_false, ht]; rfl
      · simp only [hn', h1, if_false, ht]; rfl
      · obtain ⟨h2, h3⟩ := ha
        have h4 : al.any (fun b => !b) = false := by
          rw [List.any_eq_false]; intro b hb; simp [h3 b hb]
        simp only [hn', h1, if_false, ht, h2, h4, ne_eq, not_true_eq_false, Bool.false_eq_true,
          pure_bind]; rfl
      · exact absurd ha id
    · obtain ⟨h0, h0'⟩ := hs
      have h1 : l.any (fun s => decide (s ≤ 0)) = false := by
        rw [List.any_eq_false]; intro s hs; simpa using h0' s hs
      rcases acts with _ | _ | al | _
      · simp only [hn', h0, h1, if_false, ht, ne_eq, not_true_eq_false, Bool.false_eq_true,
          pure_bind]; rfl
      · simp only [hn', h0, h1, if_false, ht, ne_eq, not_true_eq_false, Bool.false_eq_true,
          pure_bind]; rfl
      · obtain ⟨h2, h3⟩ := ha
        have h4 : al.any (fun b => !b) = false := by
          rw [List.any_eq_false]; intro b hb; simp [h3 b hb]
        simp only [hn', h0, h1, if_false, ht, h2, h4, ne_eq, not_true_eq_false, Bool.false_eq_true,
          pure_bind]; rfl
      · exact absurd ha id
  refine ⟨_, hok _ rfl, ?_⟩
  rcases sizes with s | l
  · rw [key _ (by simp)]; simp [Spec.widths, ht]
  · rw [key _ (by have := hs.1; simp; omega)]; simp [Spec.widths]

/-- **C08** An `n_layers` that is not an integer is rejected. -/
theorem C08_rejects_nonint (sizes : SizesArg) (acts : ActsArg) :
    tauNetInit none sizes acts = .error .valueError := rfl

/-- The default fitter network: two hidden layers of width 10 have 160 weights. -/
example : Spec.validTauNet 2 (.int 10) .none ∧ Spec.chainWeights (3 :: Spec.widths 2 (.int 10) ++ [3]) = 160 :=
  ⟨⟨by decide, by decide, trivial⟩, by decide⟩

example : ¬ Spec.validTauNet 2 (.list [10, 10, 10]) .none := fun h => by
  have := h.2.1.1; simp at this

end Verif
