import Verif.Props.Lbfgs

/-!
# C118: search directions of the default optimiser; a step against the objective
-/

namespace Verif
open Fl

noncomputable section

variable {N : ℕ}

/-! ### Search directions -/

/-- A stored correction with positive curvature. -/
def Correction.Good (c : Correction N) : Prop := 0 < c.ro ∧ c.ro * (c.y ⬝ᵥ c.s) = 1

theorem dot_self_pos {v : PVec N} (h : v ≠ 0) : 0 < v ⬝ᵥ v := by
  have h0 : 0 ≤ v ⬝ᵥ v := Finset.sum_nonneg fun i _ => mul_self_nonneg _
  refine lt_of_le_of_ne h0 fun he => h ?_
  exact dotProduct_self_eq_zero.1 he.symm

theorem twoLoop_pos {h0 : ℝ} (hh : 0 < h0) (l : List (Correction N)) (hl : ∀ c ∈ l, c.Good) {q : PVec N} (hq : q ≠ 0) :
    0 < q ⬝ᵥ twoLoop h0 l q := by
  have key : ∀ (l : List (Correction N)), (∀ c ∈ l, c.Good) → ∀ q : PVec N, 0 ≤ q ⬝ᵥ twoLoop h0 l q ∧ (q ≠ 0 → 0 < q ⬝ᵥ twoLoop h0 l q) := by
    intro l
    induction l with
    | nil =>
      intro _ q
      simp only [twoLoop, dotProduct_smul, smul_eq_mul]
      exact ⟨mul_nonneg hh.le (Finset.sum_nonneg fun i _ => mul_self_nonneg _), fun hq => mul_pos hh (dot_self_pos hq)⟩
    | cons c l ih =>
      intro hl q
      obtain ⟨hc1, hc2⟩ := hl c (by simp)
      rw [twoLoop]
      set al := (c.s ⬝ᵥ q) * c.ro with hal
      set r := twoLoop h0 l (q - al • c.y) with hr
      obtain ⟨i1, i2⟩ := ih (fun c hc => hl c (by simp [hc])) (q - al • c.y)
      rw [← hr] at i1 i2
      have e1 : (q - al • c.y) ⬝ᵥ r = q ⬝ᵥ r - al * (c.y ⬝ᵥ r) := by rw [sub_dotProduct, smul_dotProduct, smul_eq_mul]
      have e2 : q ⬝ᵥ (r + (al - (c.y ⬝ᵥ r) * c.ro) • c.s) = q ⬝ᵥ r + (al - (c.y ⬝ᵥ r) * c.ro) * (c.s ⬝ᵥ q) := by
        rw [dotProduct_add, dotProduct_smul, smul_eq_mul, dotProduct_comm q c.s]
      have e3 : q ⬝ᵥ (r + (al - (c.y ⬝ᵥ r) * c.ro) • c.s) = (q - al • c.y) ⬝ᵥ r + (c.s ⬝ᵥ q) ^ 2 * c.ro := by
        rw [e2, e1, hal]; ring
      rw [e3]
      have hp : 0 ≤ (c.s ⬝ᵥ q) ^ 2 * c.ro := mul_nonneg (sq_nonneg _) hc1.le
      refine ⟨add_nonneg i1 hp, fun hq => ?_⟩
      by_cases h' : q - al • c.y = 0
      · have hal0 : al ≠ 0 := by
          intro h''
          rw [h'', zero_smul, sub_zero] at h'
          exact hq h'
        have hsq : c.s ⬝ᵥ q ≠ 0 := fun h'' => hal0 (by rw [hal, h'', zero_mul])
        have : 0 < (c.s ⬝ᵥ q) ^ 2 * c.ro := mul_pos (by positivity) hc1
        linarith
      · linarith [i2 h']
  exact (key l hl q).2 hq

/-- Everything stored is of positive curvature. -/
def LbMem.Good : Option (LbMem N) → Prop
  | none => True
  | some m => (∀ c ∈ m.corr, c.Good) ∧ 0 < m.hdiag

theorem update_good {histSize : ℕ} {m : LbMem N} (h : LbMem.Good (some m)) (g : PVec N) :
    (∀ c ∈ (m.update histSize g).1, c.Good) ∧ 0 < (m.update histSize g).2 := by
  unfold LbMem.update
  simp only
  by_cases hc : 1e-10 < (g - m.prevGrad) ⬝ᵥ (m.t • m.d)
  · rw [if_pos hc]
    have hpos : 0 < (g - m.prevGrad) ⬝ᵥ (m.t • m.d) := lt_trans (by norm_num) hc
    have hy : g - m.prevGrad ≠ 0 := by
      intro h0
      rw [h0, zero_dotProduct] at hpos
      exact lt_irrefl _ hpos
    refine ⟨?_, div_pos hpos (dot_self_pos hy)⟩
    intro c hc'
    rcases List.mem_cons.1 hc' with rfl | h1
    · exact ⟨by positivity, by simp only; field_simp⟩
    · refine h.1 c ?_
      split at h1
      · exact List.mem_of_mem_dropLast h1
      · exact h1
  · rw [if_neg hc]
    exact h

theorem direction_good {histSize : ℕ} {lr : ℝ} {mem : Option (LbMem N)} (h : LbMem.Good mem) (g d : PVec N) (t : ℝ) :
    LbMem.Good (some ⟨d, t, (lbDirection histSize lr mem g).2.2.1, (lbDirection histSize lr mem g).2.2.2, g⟩) := by
  cases mem with
  | none => exact ⟨fun c hc => by simp [lbDirection] at hc, by simp [lbDirection]⟩
  | some m => exact update_good h g

theorem lbLoop_good (F : Oracle N) (histSize maxEval : ℕ) (lr : ℝ) (left evals : ℕ) {mem : Option (LbMem N)} (h : LbMem.Good mem)
    (x : PVec N) (loss : ℝ) (g : PVec N) (qs : List (PVec N)) {x' : PVec N} {m' : Option (LbMem N)}
    (hr : (lbLoop F histSize maxEval lr left evals mem x loss g qs).result = some (x', m')) : LbMem.Good m' := by
  induction left generalizing evals mem x loss g qs with
  | zero =>
    simp only [lbLoop, Option.some.injEq, Prod.mk.injEq] at hr
    rw [← hr.2]; exact h
  | succ left ih =>
    rw [lbLoop] at hr
    simp only at hr
    set dir := lbDirection histSize lr mem g with hdir
    by_cases c1 : -1e-9 < g ⬝ᵥ dir.1
    · rw [if_pos c1] at hr
      simp only [Option.some.injEq, Prod.mk.injEq] at hr
      rw [← hr.2]
      exact direction_good h g _ _
    rw [if_neg c1] at hr
    rcases hsw : strongWolfe F x dir.1 dir.2.1 loss g (g ⬝ᵥ dir.1) with ⟨ls, _ | p⟩
    · rw [hsw] at hr; simp at hr
    rw [hsw] at hr
    simp only at hr
    by_cases c2 : left = 0 ∨ maxEval ≤ evals + ls.length ∨ ‖p.g‖ ≤ 1e-7 ∨ ‖p.t • dir.1‖ ≤ 1e-9 ∨ |p.f - loss| < 1e-9
    · rw [if_pos c2] at hr
      simp only [Option.some.injEq, Prod.mk.injEq] at hr
      rw [← hr.2]
      exact direction_good h g _ _
    · rw [if_neg c2] at hr
      exact ih _ (direction_good h g _ _) _ _ _ _ hr

/-- Memories an optimiser can have after any number of steps, whatever functions it was given and whatever the learning rates. -/
inductive Spec.Reached (N : ℕ) : Option (LbMem N) → Prop
  | new : Spec.Reached N none
  | step {mem mem' : Option (LbMem N)} (F : Oracle N) (maxIter histSize : ℕ) (lr : ℝ) (x x' : PVec N) :
      Spec.Reached N mem → (lbStep F maxIter histSize lr mem x).result = some (x', mem') → Spec.Reached N mem'

theorem reached_good {mem : Option (LbMem N)} (h : Spec.Reached N mem) : LbMem.Good mem := by
  induction h with
  | new => trivial
  | step F maxIter histSize lr x x' _ hr ih =>
    by_cases c : ‖(F x).2‖ ≤ 1e-7
    · unfold lbStep at hr
      rw [if_pos c] at hr
      simp only [Option.some.injEq, Prod.mk.injEq] at hr
      rw [← hr.2]; exact ih
    · unfold lbStep at hr
      rw [if_neg c] at hr
      exact lbLoop_good F _ _ _ _ _ ih _ _ _ _ hr

/-- **C118** Every search direction of the default optimiser points downhill with respect to the gradient it is given: whatever happened in the
steps before, the slope along the direction is negative unless the gradient is zero. -/
theorem C118_descent {mem : Option (LbMem N)} (h : Spec.Reached N mem) (histSize : ℕ) (lr : ℝ) {g : PVec N} (hg : g ≠ 0) :
    g ⬝ᵥ (lbDirection histSize lr mem g).1 < 0 := by
  have hgood := reached_good h
  cases mem with
  | none =>
    simp only [lbDirection, dotProduct_neg]
    linarith [dot_self_pos hg]
  | some m =>
    simp only [lbDirection]
    have hu := update_good (histSize := histSize) hgood g
    have := twoLoop_pos hu.2 _ hu.1 (neg_ne_zero.2 hg)
    rw [neg_dotProduct] at this
    linarith

/-- **C118** The first trial of the first iteration changes the parameters by at most the learning rate (sum of absolute changes). -/
theorem C118_first_trial (histSize : ℕ) {lr : ℝ} (hlr : 0 ≤ lr) (g : PVec N) :
    ∑ i, |((lbDirection histSize lr none g).2.1 • (lbDirection histSize lr none g).1) i| ≤ lr := by
  simp only [lbDirection, Pi.smul_apply, Pi.neg_apply, smul_eq_mul, abs_mul, abs_neg]
  rw [← Finset.mul_sum]
  have h0 : 0 ≤ min 1 (1 / ∑ i, |g i|) := le_min zero_le_one (by positivity)
  rw [abs_of_nonneg h0, abs_of_nonneg hlr]
  rcases eq_or_lt_of_le (show (0 : ℝ) ≤ ∑ i, |g i| by positivity) with h | h
  · rw [← h]; simpa using hlr
  · calc min 1 (1 / ∑ i, |g i|) * lr * ∑ i, |g i| ≤ 1 / (∑ i, |g i|) * lr * ∑ i, |g i| := by
          gcongr
          exact min_le_right _ _
      _ = lr := by field_simp

/-! ### When the gradient is not that of the objective -/

open Classical in
theorem lbLoop_succ (F : Oracle N) {histSize : ℕ} (maxEval : ℕ) {lr : ℝ} (left evals : ℕ) {mem : Option (LbMem N)} (x : PVec N) (loss : ℝ)
    {g : PVec N} (qs : List (PVec N)) {d : PVec N} {t h : ℝ} {c : List (Correction N)}
    (hdir : lbDirection histSize lr mem g = (d, t, c, h)) :
    lbLoop F histSize maxEval lr (left + 1) evals mem x loss g qs =
      if -1e-9 < g ⬝ᵥ d then ⟨qs, some (x, some ⟨d, t, c, h, g⟩)⟩ else
      match strongWolfe F x d t loss g (g ⬝ᵥ d) with
      | (ls, none) => ⟨qs ++ ls, none⟩
      | (ls, some p) =>
        if left = 0 ∨ maxEval ≤ evals + ls.length ∨ ‖p.g‖ ≤ 1e-7 ∨ ‖p.t • d‖ ≤ 1e-9 ∨ |p.f - loss| < 1e-9 then
          ⟨qs ++ ls, some (x + p.t • d, some ⟨d, p.t, c, h, g⟩)⟩
        else lbLoop F histSize maxEval lr left (evals + ls.length) (some ⟨d, p.t, c, h, g⟩) (x + p.t • d) p.f p.g (qs ++ ls) := by
  rw [lbLoop, hdir]
  dsimp only
  rcases strongWolfe F x d t loss g (g ⬝ᵥ d) with ⟨ls, _ | p⟩ <;> rfl

/-- The interpolation between a point with negative slope and a higher point is a number. -/
theorem cubic_fin {f1 g1 x2 f2 g2 : ℝ} (hx : 0 < x2) (hf : f1 < f2) (hg : g1 < 0) (lo hi : ℝ) :
    ∃ t, cubicInterpolate 0 f1 g1 x2 f2 g2 lo hi = fin t := by
  unfold cubicInterpolate
  have hx0 : (0 : ℝ) - x2 ≠ 0 := by linarith
  set d1 := g1 + g2 - 3 * (f1 - f2) / (0 - x2) with hd1
  have e1 : fin (g1 + g2) - fin (3 * (f1 - f2)) / fin (0 - x2) = fin d1 := by rw [fin_div_fin _ hx0, fin_sub_fin]
  simp only
  rw [e1, fin_mul_fin, fin_sub_fin]
  have hσ : 0 < (f1 - f2) / (0 - x2) := div_pos_of_neg_of_neg (by linarith) (by linarith)
  have hd1' : d1 = g1 + g2 - 3 * ((f1 - f2) / (0 - x2)) := by rw [hd1, mul_div_assoc]
  by_cases hneg : d1 * d1 - g1 * g2 < 0
  · rw [if_pos (Or.inl (show Fl.lt (fin _) (fin 0) from hneg))]
    exact ⟨_, rfl⟩
  rw [if_neg (by
    rintro (h | h)
    · exact hneg h
    · simp at h)]
  have hsq : 0 ≤ d1 * d1 - g1 * g2 := not_lt.1 hneg
  rw [pow_nonneg_fin hsq (by norm_num), if_pos hx.le]
  set d2 := (d1 * d1 - g1 * g2) ^ (0.5 : ℝ) with hd2
  have hd2' : d2 = Real.sqrt (d1 * d1 - g1 * g2) := by rw [hd2, Real.sqrt_eq_rpow]; norm_num
  have hs : d2 * d2 = d1 * d1 - g1 * g2 := by rw [hd2', Real.mul_self_sqrt hsq]
  have hd20 : 0 ≤ d2 := by rw [hd2']; exact Real.sqrt_nonneg _
  have hden : g2 - g1 + 2 * d2 ≠ 0 := by
    intro h0
    have h1 : d2 = (g1 - g2) / 2 := by linarith
    have h2 : (d1 - (g1 + g2) / 2) * (d1 + (g1 + g2) / 2) = 0 := by
      rw [h1] at hs
      linarith
    have h3 : g2 ≤ g1 := by linarith
    rcases mul_eq_zero.1 h2 with h | h
    · linarith
    · linarith
  simp only [fin_add_fin, fin_mul_fin, fin_sub_fin, fin_div_fin _ hden]
  rw [pyMax_fin, pyMin_fin]
  exact ⟨_, rfl⟩

theorem safeguard_pos {hi t : ℝ} (hh : 0 < hi) (ht : 0 ≤ t) (insuf : Bool) : 0 < (safeguard 0 hi t insuf).1 := by
  unfold safeguard
  simp only
  by_cases c1 : min (hi - t) (t - 0) < 0.1 * (hi - 0)
  · rw [if_pos c1]
    by_cases c2 : insuf = true ∨ hi ≤ t ∨ t ≤ 0
    · rw [if_pos c2]
      simp only
      split_ifs <;> nlinarith
    · rw [if_neg c2]
      push Not at c2
      exact c2.2.2
  · rw [if_neg c1]
    have := not_lt.1 c1
    have h2 := min_le_right (hi - t) (t - 0)
    simp only
    nlinarith

theorem zoom_uphill (F : Oracle N) (x d : PVec N) {start : Trial N} (h0 : start.t = 0) (hg : start.gtd < 0)
    (hup : ∀ t : ℝ, 0 < t → start.f < (F (x + t • d)).1) (left : ℕ) (b : Trial N) (hb : OnLine F x d b) (hbt : 0 < b.t) (insuf : Bool)
    (qs : List (PVec N)) {y : PVec N} (hq : qs.getLast? = some y) (hy : start.f < (F y).1) :
    ∃ r, zoom F x d start left start b true insuf qs = (r, some start) ∧ ∃ z, r.getLast? = some z ∧ start.f < (F z).1 := by
  induction left generalizing b insuf qs y with
  | zero => exact ⟨qs, rfl, y, hq, hy⟩
  | succ left ih =>
    rw [zoom]
    by_cases c1 : |b.t - start.t| * ‖d‖ < 1e-9
    · rw [if_pos c1]
      exact ⟨qs, rfl, y, hq, hy⟩
    rw [if_neg c1]
    have hbf : start.f < b.f := by rw [hb.1]; exact hup _ hbt
    obtain ⟨t0, ht0⟩ := cubic_fin (f1 := start.f) (g1 := start.gtd) (g2 := b.gtd) hbt hbf hg (min start.t b.t) (max start.t b.t)
    have hm : min start.t b.t = 0 ∧ max start.t b.t = b.t := by
      rw [h0]; exact ⟨min_eq_left hbt.le, max_eq_right hbt.le⟩
    have hci : cubicInterpolate start.t start.f start.gtd b.t b.f b.gtd (min start.t b.t) (max start.t b.t) = fin t0 := by
      rw [← ht0, h0]
    have hb0 := cubic_bounds (by rw [hm.1, hm.2]; exact hbt.le) hci
    rw [hci]
    simp only [if_true]
    rw [hm.1, hm.2] at hb0 ⊢
    have hw := safeguard_pos hbt hb0.1 insuf
    set w := safeguard 0 b.t t0 insuf with hwdef
    have hpf : start.f < (trialAt F x d w.1).f := hup _ hw
    rw [if_pos (Or.inr hpf.le), decide_eq_true hpf.le]
    exact ih (trialAt F x d w.1) (onLine_trialAt F x d w.1) hw w.2 (qs ++ [x + w.1 • d]) (by simp) hpf

/-- **C118** The reported loss need not be that of the parameters left.  If the objective grows in the direction in which the gradient given
to the optimiser decreases (which is possible in a fit with coherence data, whose gradient ignores them, C104), the first step
leaves the parameters as they are, while the last evaluation, whose value the fit reports, is at a point of larger objective. -/
theorem C118_uphill (F : Oracle N) (maxIter histSize : ℕ) {lr : ℝ} (hlr : 0 < lr) (x : PVec N) (hi : 0 < maxIter)
    (hg : 1e-7 < ‖(F x).2‖) (hgg : 1e-9 ≤ (F x).2 ⬝ᵥ (F x).2) (hup : ∀ t : ℝ, 0 < t → (F x).1 < (F (x - t • (F x).2)).1) :
    ∃ m, (lbStep F maxIter histSize lr none x).result = some (x, m) ∧
      ∃ z, (lbStep F maxIter histSize lr none x).queries.getLast? = some z ∧ (F x).1 < (F z).1 := by
  obtain ⟨k, rfl⟩ : ∃ k, maxIter = k + 1 := ⟨maxIter - 1, by omega⟩
  have hneg : (F x).2 ⬝ᵥ (-(F x).2) < 0 := by
    rw [dotProduct_neg]
    have : (0 : ℝ) < 1e-9 := by norm_num
    linarith
  have hup' : ∀ t : ℝ, 0 < t → (F x).1 < (F (x + t • (-(F x).2))).1 := by
    intro t ht
    rw [smul_neg, ← sub_eq_add_neg]
    exact hup t ht
  have hsum : 0 < ∑ i, |(F x).2 i| := by
    have hne : (F x).2 ≠ 0 := by
      intro h
      rw [h, norm_zero] at hg
      exact absurd hg (by norm_num)
    obtain ⟨i, hi⟩ := Function.ne_iff.1 hne
    exact Finset.sum_pos' (fun _ _ => abs_nonneg _) ⟨i, Finset.mem_univ _, abs_pos.2 hi⟩
  have ht : 0 < min 1 (1 / ∑ i, |(F x).2 i|) * lr := mul_pos (lt_min one_pos (by positivity)) hlr
  set t := min 1 (1 / ∑ i, |(F x).2 i|) * lr with htdef
  set d := -(F x).2 with hd
  have hbr : bracketing F x d ⟨0, (F x).1, (F x).2, (F x).2 ⬝ᵥ d⟩ 25 0 ⟨0, (F x).1, (F x).2, (F x).2 ⬝ᵥ d⟩ (trialAt F x d t) [x + t • d] =
      ([x + t • d], some ⟨⟨0, (F x).1, (F x).2, (F x).2 ⬝ᵥ d⟩, trialAt F x d t, false, 25, [x + t • d]⟩) := by
    rw [bracketing, if_pos (Or.inl ?_)]
    have h1 := hup' t ht
    have h2 : 1e-4 * t * ((F x).2 ⬝ᵥ d) ≤ 0 := mul_nonpos_of_nonneg_of_nonpos (by positivity) hneg.le
    change (F x).1 + 1e-4 * t * ((F x).2 ⬝ᵥ d) < (F (x + t • d)).1
    linarith
  obtain ⟨r, hz, z, hz1, hz2⟩ := zoom_uphill F x d (start := ⟨0, (F x).1, (F x).2, (F x).2 ⬝ᵥ d⟩) rfl hneg hup' 25 (trialAt F x d t)
    (onLine_trialAt F x d t) ht false [x + t • d] (y := x + t • d) rfl (hup' t ht)
  have hsw : strongWolfe F x d t (F x).1 (F x).2 ((F x).2 ⬝ᵥ d) = (r, some ⟨0, (F x).1, (F x).2, (F x).2 ⬝ᵥ d⟩) := by
    unfold strongWolfe
    simp only [hbr]
    rw [if_neg (by simp), decide_eq_true (show (F x).1 ≤ (trialAt F x d t).f from (hup' t ht).le)]
    exact hz
  have hstep : lbStep F (k + 1) histSize lr none x =
      ⟨[x] ++ r, some (x + (0 : ℝ) • d, some ⟨d, 0, [], 1, (F x).2⟩)⟩ := by
    unfold lbStep
    rw [if_neg (not_le.2 hg), lbLoop_succ F _ _ _ x _ _ (show lbDirection histSize lr none (F x).2 = (d, t, [], 1) from rfl),
      if_neg (by rw [hd, dotProduct_neg]; linarith), hsw]
    simp only
    rw [if_pos (by right; right; right; left; rw [zero_smul, norm_zero]; norm_num)]
  rw [hstep]
  refine ⟨_, by rw [zero_smul, add_zero], z, ?_, hz2⟩
  rw [List.getLast?_append, hz1]; rfl

/-! ### Examples -/

/-- A step that moves: the square, from 1 with learning rate 1; the minimum is found with two evaluations. -/
theorem C118_step_example (mi hist : ℕ) (hmi : 0 < mi) :
    ∃ m, (lbStep (N := 1) (fun x => (x 0 ^ 2, fun _ => 2 * x 0)) mi hist 1 none fun _ => 1).result = some (fun _ => 0, m) ∧
      (lbStep (N := 1) (fun x => (x 0 ^ 2, fun _ => 2 * x 0)) mi hist 1 none fun _ => 1).queries = [fun _ => 1, fun _ => 0] := by
  obtain ⟨k, rfl⟩ : ∃ k, mi = k + 1 := ⟨mi - 1, by omega⟩
  have hd : (fun _ => -2 : PVec 1) = -fun _ => 2 * (1 : ℝ) := by ext; norm_num
  have hx : ((fun _ => 1 : PVec 1) + (1 / 2 : ℝ) • (fun _ => -2 : PVec 1)) = fun _ => 0 := by
    ext; simp
  have hdot : (fun _ => 2 * (1 : ℝ) : PVec 1) ⬝ᵥ (fun _ => -2) = -4 := by simp [dotProduct]; norm_num
  have hsw : strongWolfe (N := 1) (fun x => (x 0 ^ 2, fun _ => 2 * x 0)) (fun _ => 1) (fun _ => -2) (1 / 2) 1 (fun _ => 2 * 1) (-4) =
      ([fun _ => 0], some ⟨1 / 2, 0, fun _ => 0, 0⟩) := by
    have htr : trialAt (N := 1) (fun x => (x 0 ^ 2, fun _ => 2 * x 0)) (fun _ => 1) (fun _ => -2) (1 / 2) = ⟨1 / 2, 0, fun _ => 0, 0⟩ := by
      unfold trialAt
      simp only [hx]
      simp [dotProduct]
    unfold strongWolfe
    simp only [htr, hx]
    rw [bracketing, if_neg (by norm_num), if_pos (by norm_num)]
    simp
  have hstep : lbStep (N := 1) (fun x => (x 0 ^ 2, fun _ => 2 * x 0)) (k + 1) hist 1 none (fun _ => 1) =
      ⟨[fun _ => 1] ++ [fun _ => 0], some ((fun _ => 1) + (1 / 2 : ℝ) • fun _ => -2, some ⟨fun _ => -2, 1 / 2, [], 1, fun _ => 2 * 1⟩)⟩ := by
    unfold lbStep
    have hn : ‖(fun _ => 2 * (1 : ℝ) : PVec 1)‖ = 2 := by
      rw [pi_norm_const]; norm_num
    simp only
    have hm : min 1 (1 / ∑ i : Fin 1, |(fun _ => 2 * (1 : ℝ) : PVec 1) i|) * 1 = 1 / 2 := by
      simp only [Finset.univ_unique, Finset.sum_singleton]
      norm_num
    rw [if_neg (by rw [hn]; norm_num), lbLoop_succ _ _ _ _ _ _ _ (d := fun _ => -2) (t := 1 / 2) (c := []) (h := 1)
      (by unfold lbDirection; rw [hm, hd]), hdot, if_neg (by norm_num), one_pow, hsw]
    simp only
    rw [if_pos (by right; right; left; rw [show (fun _ => 0 : PVec 1) = 0 from rfl, norm_zero]; norm_num)]
  rw [hstep]
  exact ⟨_, by rw [hx], rfl⟩

/-- Reachable memories other than the initial one exist. -/
example : ∃ m : LbMem 1, Spec.Reached 1 (some m) := by
  obtain ⟨m, h, -⟩ := C118_step_example 1 1 one_pos
  have hne : m ≠ none := by
    rintro rfl
    unfold lbStep at h
    have hn : ¬ ‖(fun _ => 2 * (1 : ℝ) : PVec 1)‖ ≤ 1e-7 := by rw [pi_norm_const]; norm_num
    simp only at h
    rw [if_neg hn, lbLoop] at h
    simp only at h
    split_ifs at h
    · simp at h
    · split at h
      · simp at h
      · simp at h
  obtain ⟨m', rfl⟩ := Option.ne_none_iff_exists'.1 hne
  exact ⟨m', .step _ 1 1 1 _ _ .new h⟩

/-- The hypotheses of `C118_uphill`: objective `x`, gradient given `-1`. -/
example : ∃ m, (lbStep (N := 1) (fun x => (x 0, fun _ => -1)) 20 10 0.1 none fun _ => 0).result = some (fun _ => 0, m) ∧
      ∃ z, (lbStep (N := 1) (fun x => (x 0, fun _ => -1)) 20 10 0.1 none fun _ => 0).queries.getLast? = some z ∧ (0 : ℝ) < z 0 :=
  C118_uphill (N := 1) (fun x => (x 0, fun _ => -1)) 20 10 (by norm_num) (fun _ => 0) (by norm_num)
    (by simp only [pi_norm_const]; norm_num) (by simp [dotProduct]; norm_num) (fun t ht => by simp [ht])

end
end Verif
