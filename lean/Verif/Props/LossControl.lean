import Verif.Props.Loss

/-!
# Running averages, learning-rate advice, loss balancing: C34 - C36
-/

namespace Verif
open Fl

noncomputable section

/-- The exponential moving average of a list: `0.9^(n-1) v_1 + sum_{i>=2} 0.1 * 0.9^(n-i) v_i`. -/
def Spec.ema : List ℝ → ℝ
  | [] => 0
  | v :: l => 0.9 ^ l.length * v + ((List.range l.length).map fun i => 0.1 * 0.9 ^ (l.length - 1 - i) * l.getD i 0).sum

theorem Spec.ema_snoc (v : ℝ) (l : List ℝ) (x : ℝ) :
    Spec.ema (v :: l ++ [x]) = 0.9 * Spec.ema (v :: l) + 0.1 * x := by
  unfold Spec.ema
  simp only [List.cons_append, List.length_append, List.length_cons, List.length_nil, zero_add]
  rw [List.range_succ, List.map_append, List.sum_append]
  have h1 : ((List.range l.length).map fun i => 0.1 * 0.9 ^ (l.length + 1 - 1 - i) * (l ++ [x]).getD i 0).sum =
      (0.9:ℝ) * ((List.range l.length).map fun i => 0.1 * 0.9 ^ (l.length - 1 - i) * l.getD i 0).sum := by
    rw [← List.sum_map_mul_left]
    congr 1
    apply List.map_congr_left
    intro i hi
    have hi := List.mem_range.1 hi
    have e : l.length + 1 - 1 - i = (l.length - 1 - i) + 1 := by omega
    rw [e, pow_succ, List.getD_eq_getElem?_getD, List.getElem?_append_left hi, ← List.getD_eq_getElem?_getD]
    ring
  rw [h1]
  simp
  ring

/-- Histories selected from the five components. -/
inductive LossKey where
  | mse | coherence | pen1 | pen2 | regularization

def LossKey.get {α : Type} (k : LossKey) (f : Five α) : α :=
  match k with
  | .mse => f.mse
  | .coherence => f.coherence
  | .pen1 => f.pen1
  | .pen2 => f.pen2
  | .regularization => f.regularization

/-- Update of one history and its running average. -/
theorem eval_key (p : LossParams) (k1s : List ℝ) (zref : ℝ) (a : EvalArgs) (s : LossState) (hs : s.Aligned)
    (key : LossKey) :
    (lossEval p k1s zref a s).2 = s ∨ ∃ v : Fl, key.get (lossEval p k1s zref a s).2.hist = key.get s.hist ++ [v] ∧
      key.get (lossEval p k1s zref a s).2.avg = ema ((key.get s.hist).length + 1) (key.get s.avg) v := by
  unfold lossEval
  rcases ht : evalTerms p k1s zref a with e | t
  · left; rfl
  · right
    cases key
    · exact ⟨t.mse, rfl, by simp [LossKey.get, updateAverages]⟩
    · exact ⟨t.coherence, rfl, by simp [LossKey.get, updateAverages, hs.coherence]⟩
    · exact ⟨t.pen1, rfl, by simp [LossKey.get, updateAverages, hs.pen1]⟩
    · exact ⟨t.pen2, rfl, by simp [LossKey.get, updateAverages, hs.pen2]⟩
    · exact ⟨t.regularization, rfl, by simp [LossKey.get, updateAverages, hs.regularization]⟩

/-- Invariant behind C34. -/
theorem ema_invariant (p : LossParams) (k1s : List ℝ) (zref : ℝ) (calls : List EvalArgs) (key : LossKey) :
    ∀ l : List ℝ, key.get (runEvals p k1s zref calls .init).hist = l.map fin → l ≠ [] →
      key.get (runEvals p k1s zref calls .init).avg = fin (Spec.ema l) := by
  induction calls using List.reverseRecOn with
  | nil =>
    intro l h hl
    cases key <;> simp [runEvals, LossState.init, LossKey.get] at h <;> exact absurd h hl
  | append_singleton calls a ih =>
    intro l h hl
    have e : runEvals p k1s zref (calls ++ [a]) .init = (lossEval p k1s zref a (runEvals p k1s zref calls .init)).2 := by
      simp [runEvals, List.foldl_append]
    rw [e] at h ⊢
    rcases eval_key p k1s zref a _ (C33_aligned p k1s zref calls).1 key with h0 | ⟨v, h1, h2⟩
    · rw [h0] at h ⊢; exact ih l h hl
    · rw [h1] at h
      obtain ⟨l', x, rfl⟩ : ∃ l' x, l = l' ++ [x] := ⟨l.dropLast, l.getLast hl, (List.dropLast_append_getLast hl).symm⟩
      rw [List.map_append, List.map_cons, List.map_nil] at h
      obtain ⟨ha, hb⟩ := List.append_inj' h rfl
      simp only [List.cons.injEq, and_true] at hb
      rw [h2, hb, ha]
      cases l' with
      | nil => simp [ema, Spec.ema]
      | cons w l' =>
        rw [ih (w :: l') ha (by simp), Spec.ema_snoc]
        simp only [ema, List.length_map, List.length_cons]
        rw [if_neg (by omega)]
        simp only [fin_mul_fin, fin_add_fin]
        congr 1
        norm_num

/-- **C34** Each running average is the exponential moving average of its recorded history. -/
theorem C34_ema (p : LossParams) (k1s : List ℝ) (zref : ℝ) (calls : List EvalArgs) (key : LossKey) {l : List ℝ}
    (h : key.get (runEvals p k1s zref calls .init).hist = l.map fin) (hl : l ≠ []) :
    key.get (runEvals p k1s zref calls .init).avg = fin (Spec.ema l) :=
  ema_invariant p k1s zref calls key l h hl

/-- The moving average lies between the bounds of the list. -/
theorem Spec.ema_mem_Icc {l : List ℝ} (hl : l ≠ []) {a b : ℝ} (h : ∀ x ∈ l, a ≤ x ∧ x ≤ b) :
    a ≤ Spec.ema l ∧ Spec.ema l ≤ b := by
  induction l using List.reverseRecOn with
  | nil => exact absurd rfl hl
  | append_singleton l x ih =>
    cases l with
    | nil => simpa [Spec.ema] using h x (by simp)
    | cons v l =>
      have h1 := ih (by simp) fun y hy => h y (by simp at hy ⊢; tauto)
      have h2 := h x (by simp)
      rw [Spec.ema_snoc]
      constructor <;> linarith [h1.1, h1.2, h2.1, h2.2]

/-- **C34** Each running average lies between the smallest and the largest recorded value. -/
theorem C34_bounds (p : LossParams) (k1s : List ℝ) (zref : ℝ) (calls : List EvalArgs) (key : LossKey) {l : List ℝ}
    (h : key.get (runEvals p k1s zref calls .init).hist = l.map fin) (hl : l ≠ []) {a b : ℝ}
    (hab : ∀ x ∈ l, a ≤ x ∧ x ≤ b) :
    ∃ m : ℝ, key.get (runEvals p k1s zref calls .init).avg = fin m ∧ a ≤ m ∧ m ≤ b :=
  ⟨_, C34_ema p k1s zref calls key h hl, (Spec.ema_mem_Icc hl hab).1, (Spec.ema_mem_Icc hl hab).2⟩

theorem eval_key_ge0 (p : LossParams) (k1s : List ℝ) {zref : ℝ} (hz : 0 ≤ zref) (calls : List EvalArgs) (key : LossKey) :
    (∀ x ∈ key.get (runEvals p k1s zref calls .init).hist, Ge0 x) ∧
    Ge0 (key.get (runEvals p k1s zref calls .init).avg) ∧
    (pinf ∈ key.get (runEvals p k1s zref calls .init).hist → key.get (runEvals p k1s zref calls .init).avg = pinf) := by
  induction calls using List.reverseRecOn with
  | nil =>
    cases key <;> simp [runEvals, LossState.init, LossKey.get] <;> exact ge0_zero
  | append_singleton calls a ih =>
    have e : runEvals p k1s zref (calls ++ [a]) .init = (lossEval p k1s zref a (runEvals p k1s zref calls .init)).2 := by
      simp [runEvals, List.foldl_append]
    rw [e]
    have halign := (C33_aligned p k1s zref calls).1
    set s := runEvals p k1s zref calls .init
    have hstep : (lossEval p k1s zref a s).2 = s ∨
        ∃ v : Fl, Ge0 v ∧ key.get (lossEval p k1s zref a s).2.hist = key.get s.hist ++ [v] ∧
        key.get (lossEval p k1s zref a s).2.avg = ema ((key.get s.hist).length + 1) (key.get s.avg) v := by
      unfold lossEval
      rcases ht : evalTerms p k1s zref a with e | t
      · left; rfl
      · right
        obtain ⟨g1, g2, g3, g4, g5⟩ := evalTerms_ge0 hz ht
        cases key
        · exact ⟨t.mse, g1, rfl, by simp [LossKey.get, updateAverages]⟩
        · exact ⟨t.coherence, g2, rfl, by simp [LossKey.get, updateAverages, halign.coherence]⟩
        · exact ⟨t.pen1, g3, rfl, by simp [LossKey.get, updateAverages, halign.pen1]⟩
        · exact ⟨t.pen2, g4, rfl, by simp [LossKey.get, updateAverages, halign.pen2]⟩
        · exact ⟨t.regularization, g5, rfl, by simp [LossKey.get, updateAverages, halign.regularization]⟩
    rcases hstep with h0 | ⟨v, hv, h1, h2⟩
    · rw [h0]; exact ih
    · obtain ⟨i1, i2, i3⟩ := ih
      have hmul : ∀ {x : Fl} {c : ℝ}, 0 < c → Ge0 x → Ge0 (fin c * x) := by
        intro x c hc hx
        rcases hx with rfl | ⟨r, hr, rfl⟩
        · left; rw [fin_mul_pinf, infMul_pos hc]
        · right; exact ⟨c * r, by positivity, rfl⟩
      have ht : (0:ℝ) < 1 - 0.9 := by norm_num
      refine ⟨?_, ?_, ?_⟩
      · rw [h1]
        intro x hx
        rcases List.mem_append.1 hx with hx | hx
        · exact i1 x hx
        · rw [List.mem_singleton.1 hx]; exact hv
      · rw [h2]
        unfold ema
        split_ifs
        · exact hv
        · exact (hmul (by norm_num) i2).add (hmul ht hv)
      · rw [h1, h2]
        intro hmem
        unfold ema
        rcases List.mem_append.1 hmem with hx | hx
        · rw [if_neg (by have := List.length_pos_of_mem hx; omega), i3 hx, fin_mul_pinf, infMul_pos (by norm_num)]
          rcases hmul ht hv with h | ⟨r, -, h⟩ <;> rw [h] <;> rfl
        · rw [← List.mem_singleton.1 hx]
          split_ifs
          · rfl
          · rw [fin_mul_pinf, infMul_pos ht]
            rcases hmul (show (0:ℝ) < 0.9 by norm_num) i2 with h | ⟨r, -, h⟩ <;> rw [h] <;> rfl

/-- **C34** One infinite recorded value makes the running average infinite for ever: it never recovers. -/
theorem C34_infinite_absorbing (p : LossParams) (k1s : List ℝ) {zref : ℝ} (hz : 0 ≤ zref) (calls : List EvalArgs)
    (key : LossKey) (h : pinf ∈ key.get (runEvals p k1s zref calls .init).hist) :
    key.get (runEvals p k1s zref calls .init).avg = pinf :=
  (eval_key_ge0 p k1s hz calls key).2.2 h

/-! ### Learning-rate advice -/

/-- **C35** The advice never raises the rate: the factor, if any, is one of 0.5, 0.3, 0.7. -/
theorem C35_never_increases (s : LossState) (epoch w : ℕ) {r : LRAdvice} (_ : shouldAdjust s epoch w = .ok r)
    {f : ℝ} (hf : r.factor = some f) : 0 < f ∧ f < 1 := by
  cases r <;> simp [LRAdvice.factor] at hf <;> subst hf <;> norm_num

/-- **C35** No adjustment before `window` epochs, or with fewer than `window` recorded losses. -/
theorem C35_no_early_advice (s : LossState) (epoch w : ℕ) (h : epoch < w ∨ s.total.length < w) :
    ∃ r, shouldAdjust s epoch w = .ok r ∧ r.factor = none := by
  unfold shouldAdjust
  by_cases h1 : epoch < w
  · exact ⟨.insufficientData, by rw [if_pos h1], rfl⟩
  · rw [if_neg h1]
    have h2 := h.resolve_left h1
    refine ⟨.noDiagnostics, ?_, rfl⟩
    unfold lossDiagnostics
    rw [if_pos h2]

/-- Mean of a list of reals. -/
def Spec.mean (l : List ℝ) : ℝ := l.sum / l.length
/-- Population standard deviation. -/
def Spec.std (l : List ℝ) : ℝ := Real.sqrt (Spec.mean (l.map fun x => (x - Spec.mean l) ^ 2))
/-- The last `w` entries. -/
def Spec.last (w : ℕ) (l : List ℝ) : List ℝ := l.drop (l.length - w)

/-- Recorded histories, all finite: mse, coherence, pen1, pen2, regularisation, total. -/
structure Spec.Hist where
  mse : List ℝ
  coherence : List ℝ
  pen1 : List ℝ
  pen2 : List ℝ
  regularization : List ℝ
  total : List ℝ

/-- Component means over the window. -/
def Spec.Hist.means (h : Spec.Hist) (w : ℕ) : List ℝ :=
  [Spec.mean (Spec.last w h.mse), Spec.mean (Spec.last w h.coherence), Spec.mean (Spec.last w h.pen1),
    Spec.mean (Spec.last w h.pen2), Spec.mean (Spec.last w h.regularization)]

/-- Relative improvement between the two halves of the window. -/
def Spec.Hist.improvement (h : Spec.Hist) (w : ℕ) : ℝ :=
  let t := Spec.last w h.total
  (Spec.mean (t.take (w / 2)) - Spec.mean (t.drop (w / 2))) / max (Spec.mean (t.take (w / 2))) 1e-8

/-- A recorded state whose entries are all finite. -/
def Spec.Hist.Records (h : Spec.Hist) (s : LossState) (n : ℕ) : Prop :=
  s.hist.mse = h.mse.map fin ∧ s.hist.coherence = h.coherence.map fin ∧ s.hist.pen1 = h.pen1.map fin ∧
  s.hist.pen2 = h.pen2.map fin ∧ s.hist.regularization = h.regularization.map fin ∧ s.total = h.total.map fin ∧
  h.mse.length = n ∧ h.coherence.length = n ∧ h.pen1.length = n ∧ h.pen2.length = n ∧ h.regularization.length = n ∧
  h.total.length = n

theorem lastWindow_fin {w : ℕ} (l : List ℝ) (hw : 0 < w) (h : w ≤ l.length) :
    lastWindow w (l.map fin) = (Spec.last w l).map fin := by
  have e : sliceIdx (l.map fin).length (-(w:ℤ)) = l.length - w := by
    unfold sliceIdx
    rw [if_pos (by omega), List.length_map]
    omega
  unfold lastWindow pySlice
  simp only [e]
  rw [List.take_length, Spec.last, List.map_drop]

theorem flMean_fin {l : List ℝ} (h : l ≠ []) : flMean (l.map fin) = fin (Spec.mean l) := mean_map_fin l id h |>.trans
  (by simp [Spec.mean])

theorem pyMax_fin (a b : ℝ) : pyMax (fin a) (fin b) = fin (max a b) := by
  unfold pyMax
  by_cases h : a < b
  · simp [h, max_eq_right h.le]
  · simp [h, max_eq_left (not_lt.1 h)]

theorem pyMin_fin (a b : ℝ) : pyMin (fin a) (fin b) = fin (min a b) := by
  unfold pyMin
  by_cases h : b < a
  · simp [h, min_eq_right h.le]
  · simp [h, min_eq_left (not_lt.1 h)]

theorem flStd_fin {l : List ℝ} (h : l ≠ []) : flStd (l.map fin) = fin (Spec.std l) := by
  unfold flStd
  rw [flMean_fin h]
  have e : ((l.map fin).map fun x => (x - fin (Spec.mean l)) * (x - fin (Spec.mean l))) =
      (l.map fun x => (x - Spec.mean l) ^ 2).map fin := by
    rw [List.map_map, List.map_map]
    apply List.map_congr_left
    intro x _
    simp only [Function.comp_apply, fin_sub_fin, fin_mul_fin]
    congr 1
    ring
  rw [e, List.length_map]
  have hne : (l.map fun x => (x - Spec.mean l) ^ 2) ≠ [] := by simpa using h
  have hm := flMean_fin hne
  unfold flMean at hm
  rw [List.length_map, List.length_map] at hm
  rw [hm, pow_nonneg_fin _ (by norm_num), Spec.std, Real.sqrt_eq_rpow]
  · norm_num
  · exact div_nonneg (sum_nonneg_map _ _ fun _ _ => sq_nonneg _) (by positivity)

/-- **C35** With enough epochs and records, the advice is decided in the order: stagnation (relative improvement between
the two halves of the window below 1 %), instability (standard deviation of the total above 7/3), dominance (some
component mean more than 100 times every component mean — hence never, unless some other mean is at least 100 times
smaller; formally: more than 100 times `max(smallest mean, 1e-8)`), otherwise healthy. -/
theorem C35_priority (s : LossState) (h : Spec.Hist) {n epoch w : ℕ} (hr : h.Records s n) (hw : 2 ≤ w) (hn : w ≤ n)
    (he : w ≤ epoch) :
    ∃ mx mn : ℝ, mx ∈ h.means w ∧ mn ∈ h.means w ∧ (∀ y ∈ h.means w, mn ≤ y ∧ y ≤ mx) ∧
      shouldAdjust s epoch w = .ok (
        open Classical in
        if h.improvement w < 0.01 then .stagnation
        else if 7 / 3 < Spec.std (Spec.last w h.total) then .instability
        else if 100 * max mn 1e-8 < mx then .dominance
        else .healthy) := by
  obtain ⟨r1, r2, r3, r4, r5, r6, l1, l2, l3, l4, l5, l6⟩ := hr
  have hlen : ∀ l : List ℝ, l.length = n → (Spec.last w l).length = w := by
    intro l hl; unfold Spec.last; rw [List.length_drop, hl]; omega
  have hne : ∀ l : List ℝ, l.length = n → Spec.last w l ≠ [] := by
    intro l hl h0
    have := hlen l hl
    rw [h0] at this
    simp at this
    omega
  have hlw : ∀ l : List ℝ, l.length = n → lastWindow w (l.map fin) = (Spec.last w l).map fin := fun l hl =>
    lastWindow_fin l (by omega) (by omega)
  set m1 := Spec.mean (Spec.last w h.mse) with hm1
  set m2 := Spec.mean (Spec.last w h.coherence) with hm2
  set m3 := Spec.mean (Spec.last w h.pen1) with hm3
  set m4 := Spec.mean (Spec.last w h.pen2) with hm4
  set m5 := Spec.mean (Spec.last w h.regularization) with hm5
  have hmeans : h.means w = [m1, m2, m3, m4, m5] := rfl
  refine ⟨max (max (max (max m1 m2) m3) m4) m5, min (min (min (min m1 m2) m3) m4) m5, ?_, ?_, ?_, ?_⟩
  · rw [hmeans]
    rcases max_choice (max (max (max m1 m2) m3) m4) m5 with e | e <;> rw [e]
    · rcases max_choice (max (max m1 m2) m3) m4 with e | e <;> rw [e]
      · rcases max_choice (max m1 m2) m3 with e | e <;> rw [e]
        · rcases max_choice m1 m2 with e | e <;> rw [e] <;> simp
        · simp
      · simp
    · simp
  · rw [hmeans]
    rcases min_choice (min (min (min m1 m2) m3) m4) m5 with e | e <;> rw [e]
    · rcases min_choice (min (min m1 m2) m3) m4 with e | e <;> rw [e]
      · rcases min_choice (min m1 m2) m3 with e | e <;> rw [e]
        · rcases min_choice m1 m2 with e | e <;> rw [e] <;> simp
        · simp
      · simp
    · simp
  · rw [hmeans]
    intro y hy
    simp only [List.mem_cons, List.not_mem_nil, or_false] at hy
    rcases hy with rfl | rfl | rfl | rfl | rfl <;> simp
  · set t := Spec.last w h.total with ht
    have htl : t.length = w := hlen _ l6
    have htn : t ≠ [] := hne _ l6
    have hearly : t.take (w / 2) ≠ [] := by
      intro h0; have := congrArg List.length h0; simp [htl] at this; omega
    have hrecent : t.drop (w / 2) ≠ [] := by
      intro h0; have := congrArg List.length h0; simp [htl] at this; omega
    have hd : lossDiagnostics s w = .ok (some ⟨
        some (fin (max (max (max (max m1 m2) m3) m4) m5 / max (min (min (min (min m1 m2) m3) m4) m5) 1e-8)),
        some (fin (h.improvement w)), some (fin (1 / (1 + Spec.std t)))⟩) := by
      unfold lossDiagnostics
      rw [r1, r2, r3, r4, r5, r6, List.length_map, l6, if_neg (by omega)]
      simp only [hlw _ l1, hlw _ l2, hlw _ l3, hlw _ l4, hlw _ l5, hlw _ l6, flMean_fin (hne _ l1),
        flMean_fin (hne _ l2), flMean_fin (hne _ l3), flMean_fin (hne _ l4), flMean_fin (hne _ l5), ← hm1, ← hm2, ← hm3,
        ← hm4, ← hm5, ← ht]
      rw [if_neg (by simpa using htn), List.length_map, if_pos (by omega)]
      rw [← List.map_take, ← List.map_drop]
      unfold pyMean
      rw [if_neg (by simpa using hearly), if_neg (by simpa using hrecent)]
      simp only [List.tail_cons, List.headD_cons, List.foldl_cons, List.foldl_nil, pyMax_fin, pyMin_fin]
      rw [flMean_fin hearly, flMean_fin hrecent, pyMax_fin, fin_sub_fin, fin_div_fin, fin_div_fin, flStd_fin htn,
        fin_add_fin, fin_div_fin]
      · rfl
      · have : 0 ≤ Spec.std t := Real.sqrt_nonneg _
        positivity
      · exact (lt_max_of_lt_right (by norm_num)).ne'
      · exact (lt_max_of_lt_right (by norm_num)).ne'
    unfold shouldAdjust
    rw [if_neg (by omega), hd]
    simp only [Option.getD_some, lt_fin]
    have hs : 0 ≤ Spec.std t := Real.sqrt_nonneg _
    have hst : 1 / (1 + Spec.std t) < 0.3 ↔ 7 / 3 < Spec.std t := by
      rw [div_lt_iff₀ (by positivity)]
      constructor <;> intro h <;> linarith
    have hdom : 100 < max (max (max (max m1 m2) m3) m4) m5 / max (min (min (min (min m1 m2) m3) m4) m5) 1e-8 ↔
        100 * max (min (min (min (min m1 m2) m3) m4) m5) 1e-8 < max (max (max (max m1 m2) m3) m4) m5 :=
      lt_div_iff₀ (lt_max_of_lt_right (by norm_num))
    simp only [hst, hdom]
    split_ifs <;> rfl

/-- **C35** The recommended factors: 0.5 for stagnation, 0.3 for instability, 0.7 for dominance, none otherwise. -/
theorem C35_factors (s : LossState) (h : Spec.Hist) {n epoch w : ℕ} (hr : h.Records s n) (hw : 2 ≤ w) (hn : w ≤ n)
    (he : w ≤ epoch) :
    ∃ r mx mn, shouldAdjust s epoch w = .ok r ∧ mx ∈ h.means w ∧ mn ∈ h.means w ∧ (∀ y ∈ h.means w, mn ≤ y ∧ y ≤ mx) ∧
      (h.improvement w < 0.01 → r.factor = some 0.5) ∧
      (0.01 ≤ h.improvement w → 7 / 3 < Spec.std (Spec.last w h.total) → r.factor = some 0.3) ∧
      (0.01 ≤ h.improvement w → Spec.std (Spec.last w h.total) ≤ 7 / 3 → 100 * max mn 1e-8 < mx → r.factor = some 0.7) ∧
      (0.01 ≤ h.improvement w → Spec.std (Spec.last w h.total) ≤ 7 / 3 → mx ≤ 100 * max mn 1e-8 → r.factor = none) := by
  obtain ⟨mx, mn, h1, h2, h3, h4⟩ := C35_priority s h hr hw hn he
  refine ⟨_, mx, mn, h4, h1, h2, h3, ?_, ?_, ?_, ?_⟩
  · intro a; rw [if_pos a]; rfl
  · intro a b; rw [if_neg (not_lt.2 a), if_pos b]; rfl
  · intro a b c; rw [if_neg (not_lt.2 a), if_neg (not_lt.2 b), if_pos c]; rfl
  · intro a b c; rw [if_neg (not_lt.2 a), if_neg (not_lt.2 b), if_neg (not_lt.2 c)]; rfl

/-- **C35** Windows 0 and 1 crash instead of giving advice: with one recorded loss and window 1 the improvement ratio is
missing and the type assertion fails; with two records and window 0 the mean of an empty half divides by zero. -/
theorem C35_small_windows (s : LossState) (epoch : ℕ) (a b : Fl) :
    (s.total = [a] → 1 ≤ epoch → shouldAdjust s epoch 1 = .error .assertionError) ∧
    (s.total = [a, b] → shouldAdjust s epoch 0 = .error .zeroDivisionError) := by
  constructor
  · intro h he
    unfold shouldAdjust lossDiagnostics
    rw [if_neg (by omega), h, if_neg (by simp)]
    simp [lastWindow, pySlice, sliceIdx]
  · intro h
    unfold shouldAdjust lossDiagnostics
    rw [if_neg (by omega), h, if_neg (by simp)]
    simp [lastWindow, pySlice, sliceIdx, pyMean]

/-- A state meeting the hypotheses of `C35_priority`. -/
example : ∃ (s : LossState) (h : Spec.Hist), h.Records s 2 :=
  ⟨⟨⟨[fin 3, fin 1], [fin 0, fin 0], [fin 0, fin 0], [fin 0, fin 0], [fin 0, fin 0]⟩, [fin 3, fin 1],
    ⟨fin 1, fin 0, fin 0, fin 0, fin 0⟩⟩,
    ⟨[3, 1], [0, 0], [0, 0], [0, 0], [0, 0], [3, 1]⟩, by simp [Spec.Hist.Records]⟩

/-- **C79** If any of the five terms was recorded as 0 over the whole window (for instance because it is disabled) and
some component mean exceeds `1e-6`, the advice is always to reduce the rate; training is never reported healthy. -/
theorem C79_disabled_term_dominates (s : LossState) (h : Spec.Hist) {n epoch w : ℕ} (hr : h.Records s n) (hw : 2 ≤ w)
    (hn : w ≤ n) (he : w ≤ epoch) (h0 : (0:ℝ) ∈ h.means w) (h1 : ∃ x ∈ h.means w, 1e-6 < x) :
    ∃ r f, shouldAdjust s epoch w = .ok r ∧ r.factor = some f := by
  classical
  obtain ⟨mx, mn, -, -, hb, h⟩ := C35_priority s h hr hw hn he
  obtain ⟨x, hx, hx'⟩ := h1
  have hmn : mn ≤ 0 := (hb 0 h0).1
  have hmx : x ≤ mx := (hb x hx).2
  have hdom : 100 * max mn 1e-8 < mx := by
    rw [max_eq_right (by linarith)]
    linarith
  rw [h]
  split_ifs
  · exact ⟨_, _, rfl, rfl⟩
  · exact ⟨_, _, rfl, rfl⟩
  · exact ⟨_, _, rfl, rfl⟩

/-! ### Loss balancing -/

/-- Arguments of a `compute_loss_scales` call. -/
structure ScaleCall where
  epoch : ℕ
  mse : ℝ
  coh : Option ℝ

/-- Scales after a sequence of calls. -/
def runScales (calls : List ScaleCall) (sc : Option (ℝ × ℝ)) : Option (ℝ × ℝ) :=
  calls.foldl (fun sc c => (computeLossScales c.epoch c.mse c.coh sc).2) sc

/-- Non-negative losses. -/
def ScaleCall.Nonneg (c : ScaleCall) : Prop := 0 ≤ c.mse ∧ ∀ x ∈ c.coh, 0 ≤ x

/-- **C36** After any sequence of calls the returned factors are positive and at most `1e8`. -/
theorem C36_bounds (calls : List ScaleCall) (c : ScaleCall) :
    let r := (computeLossScales c.epoch c.mse c.coh (runScales calls none)).1
    0 < r.1 ∧ r.1 ≤ 1e8 ∧ 0 < r.2 ∧ r.2 ≤ 1e8 := by
  have key : ∀ x : ℝ, 0 < 1 / max x 1e-8 ∧ 1 / max x 1e-8 ≤ 1e8 := by
    intro x
    have h : (1e-8:ℝ) ≤ max x 1e-8 := le_max_right _ _
    have h0 : 0 < max x 1e-8 := lt_of_lt_of_le (by norm_num) h
    refine ⟨by positivity, ?_⟩
    rw [div_le_iff₀ h0]
    linarith
  exact ⟨(key _).1, (key _).2, (key _).1, (key _).2⟩

/-- **C36** Between rebalancing epochs (epoch not a multiple of 10) the factors do not change. -/
theorem C36_constant_between (calls : List ScaleCall) (hne : calls ≠ []) (c : ScaleCall) (h : c.epoch % 10 ≠ 0) :
    (computeLossScales c.epoch c.mse c.coh (runScales calls none)).2 = runScales calls none := by
  obtain ⟨l, x, rfl⟩ : ∃ l x, calls = l ++ [x] :=
    ⟨calls.dropLast, calls.getLast hne, (List.dropLast_append_getLast hne).symm⟩
  have : runScales (l ++ [x]) none = (computeLossScales x.epoch x.mse x.coh (runScales l none)).2 := by
    simp [runScales, List.foldl_append]
  rw [this]
  unfold computeLossScales
  simp [h]

/-- **C36** With non-negative losses the stored magnitudes stay non-negative and bounded by the largest loss seen
(and 1), so the factors are at least the reciprocal of that bound. -/
theorem C36_lower_bound (calls : List ScaleCall) (c : ScaleCall) {B : ℝ} (hB : 1 ≤ B)
    (h : ∀ d ∈ c :: calls, d.Nonneg ∧ d.mse ≤ B ∧ ∀ x ∈ d.coh, x ≤ B) :
    let r := (computeLossScales c.epoch c.mse c.coh (runScales calls none)).1
    1 / B ≤ r.1 ∧ 1 / B ≤ r.2 := by
  have step : ∀ (d : ScaleCall) (sc : Option (ℝ × ℝ)), d.Nonneg → d.mse ≤ B → (∀ x ∈ d.coh, x ≤ B) →
      (∀ q ∈ sc, q.1 ≤ B ∧ q.2 ≤ B) → ∀ q ∈ (computeLossScales d.epoch d.mse d.coh sc).2, q.1 ≤ B ∧ q.2 ≤ B := by
    intro d sc hd h1 h2 hsc q hq
    unfold computeLossScales at hq
    simp only [Option.mem_def, Option.some.injEq] at hq
    subst hq
    rcases sc with _ | ⟨m, c0⟩
    · refine ⟨h1, ?_⟩
      rcases hc : d.coh with _ | x
      · exact hB
      · simp only
        split_ifs
        · exact h2 x (by simp [hc])
        · exact hB
    · have := hsc (m, c0) rfl
      simp only at this ⊢
      split_ifs with he
      · refine ⟨by simp only; linarith [this.1], ?_⟩
        rcases hc : d.coh with _ | x
        · exact this.2
        · simp only
          split_ifs
          · have := h2 x (by simp [hc]); linarith
          · exact this.2
      · exact this
  have hrun : ∀ (l : List ScaleCall) (sc : Option (ℝ × ℝ)), (∀ d ∈ l, d.Nonneg ∧ d.mse ≤ B ∧ ∀ x ∈ d.coh, x ≤ B) →
      (∀ q ∈ sc, q.1 ≤ B ∧ q.2 ≤ B) → ∀ q ∈ runScales l sc, q.1 ≤ B ∧ q.2 ≤ B := by
    intro l
    induction l with
    | nil => intro sc _ hsc; exact hsc
    | cons d l ih =>
      intro sc hl hsc
      have hd := hl d (by simp)
      exact ih _ (fun e he => hl e (by simp [he])) (step d sc hd.1 hd.2.1 hd.2.2 hsc)
  have h0 := hrun calls none (fun d hd => h d (by simp [hd])) (by simp)
  have hc := h c (by simp)
  have hfin := step c _ hc.1 hc.2.1 hc.2.2 h0
  have key : ∀ x : ℝ, x ≤ B → 1 / B ≤ 1 / max x 1e-8 := by
    intro x hx
    refine one_div_le_one_div_of_le (lt_max_of_lt_right (by norm_num)) (max_le hx ?_)
    linarith
  have := hfin _ rfl
  exact ⟨key _ this.1, key _ this.2⟩

example : ∀ d ∈ [(⟨0, 2, some 0.5⟩ : ScaleCall), ⟨3, 1, none⟩], d.Nonneg ∧ d.mse ≤ 2 ∧ ∀ x ∈ d.coh, x ≤ 2 := by
  intro d hd
  simp only [List.mem_cons, List.not_mem_nil, or_false] at hd
  rcases hd with rfl | rfl
  · norm_num [ScaleCall.Nonneg]
  · simp [ScaleCall.Nonneg]

end
end Verif
