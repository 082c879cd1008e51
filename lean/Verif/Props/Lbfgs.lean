import Verif.Model.Lbfgs
import Verif.Props.LearningRate

/-!
# C118: what the default optimiser does to the objective
-/

namespace Verif
open Fl

noncomputable section

/-! ### The line search -/

theorem pyClamp {p : Fl} {lo hi t : ℝ} (hle : lo ≤ hi) (h : pyMin (pyMax p (fin lo)) (fin hi) = fin t) : lo ≤ t ∧ t ≤ hi := by
  classical
  unfold pyMin pyMax at h
  cases p with
  | nan => simp [Fl.lt] at h
  | pinf => simp [Fl.lt] at h; rw [← h]; exact ⟨hle, le_rfl⟩
  | ninf =>
    rw [if_pos (show Fl.lt ninf (fin lo) from trivial), if_neg (show ¬ Fl.lt (fin hi) (fin lo) from not_lt.2 hle)] at h
    have := fin_inj.1 h
    exact ⟨this.le, this ▸ hle⟩
  | fin x =>
    by_cases h1 : x < lo
    · rw [if_pos (show Fl.lt (fin x) (fin lo) from h1), if_neg (show ¬ Fl.lt (fin hi) (fin lo) from not_lt.2 hle)] at h
      have := fin_inj.1 h
      exact ⟨this.le, this ▸ hle⟩
    · rw [if_neg (show ¬ Fl.lt (fin x) (fin lo) from h1)] at h
      by_cases h2 : hi < x
      · rw [if_pos (show Fl.lt (fin hi) (fin x) from h2)] at h
        have := fin_inj.1 h
        exact ⟨this ▸ hle, this.ge⟩
      · rw [if_neg (show ¬ Fl.lt (fin hi) (fin x) from h2)] at h
        have := fin_inj.1 h
        exact ⟨this ▸ not_lt.1 h1, this ▸ not_lt.1 h2⟩

theorem cubic_bounds {x1 f1 g1 x2 f2 g2 lo hi t : ℝ} (hle : lo ≤ hi)
    (h : cubicInterpolate x1 f1 g1 x2 f2 g2 lo hi = fin t) : lo ≤ t ∧ t ≤ hi := by
  unfold cubicInterpolate at h
  simp only at h
  by_cases hc : Fl.lt ((fin (g1 + g2) - fin (3 * (f1 - f2)) / fin (x1 - x2)) *
      (fin (g1 + g2) - fin (3 * (f1 - f2)) / fin (x1 - x2)) - fin (g1 * g2)) (fin 0) ∨
      ((fin (g1 + g2) - fin (3 * (f1 - f2)) / fin (x1 - x2)) *
      (fin (g1 + g2) - fin (3 * (f1 - f2)) / fin (x1 - x2)) - fin (g1 * g2)) = nan
  · rw [if_pos hc] at h
    have := fin_inj.1 h
    constructor <;> linarith
  · rw [if_neg hc] at h
    exact pyClamp hle h

variable {N : ℕ}

/-- The trial belongs to a point of the search line. -/
def OnLine (F : Oracle N) (x d : PVec N) (p : Trial N) : Prop :=
  p.f = (F (x + p.t • d)).1 ∧ p.g = (F (x + p.t • d)).2 ∧ p.gtd = p.g ⬝ᵥ d

theorem onLine_trialAt (F : Oracle N) (x d : PVec N) (t : ℝ) : OnLine F x d (trialAt F x d t) := ⟨rfl, rfl, rfl⟩

theorem bracketing_spec (F : Oracle N) (x d : PVec N) {start : Trial N} (hstart : OnLine F x d start) (h0 : start.gtd ≤ 0)
    (left iter : ℕ) (prev cur : Trial N) (qs : List (PVec N)) (hp : OnLine F x d prev) (hc : OnLine F x d cur)
    (ht : prev.t ≤ cur.t) (ht0 : 0 ≤ prev.t) (hf : prev.f ≤ start.f) (hq : qs.getLast? = some (x + cur.t • d)) {K : ℕ}
    (hK : qs.length + left ≤ K) {r : List (PVec N)} {o : Option (Bracket N)}
    (h : bracketing F x d start left iter prev cur qs = (r, o)) :
    r ≠ [] ∧ r.length ≤ K ∧ (∃ l, r = qs ++ l) ∧
    ∀ br, o = some br → OnLine F x d br.a ∧ OnLine F x d br.b ∧ br.a.f ≤ start.f ∧ r.getLast? = some (x + br.b.t • d) ∧
      (br.done = true → br.a = br.b) ∧ r.length + br.left ≤ K := by
  induction left generalizing iter prev cur qs with
  | zero =>
    rw [bracketing] at h
    obtain ⟨rfl, rfl⟩ := Prod.mk.inj h
    refine ⟨by rintro rfl; simp at hq, by omega, ⟨[], by simp⟩, ?_⟩
    rintro br hbr
    obtain rfl := Option.some.inj hbr
    exact ⟨hstart, hc, le_rfl, hq, fun h => by simp at h, hK⟩
  | succ left ih =>
    rw [bracketing] at h
    have hne : qs ≠ [] := by rintro rfl; simp at hq
    by_cases c1 : start.f + 1e-4 * cur.t * start.gtd < cur.f ∨ (1 < iter ∧ prev.f ≤ cur.f)
    · rw [if_pos c1] at h
      obtain ⟨rfl, rfl⟩ := Prod.mk.inj h
      refine ⟨hne, by omega, ⟨[], by simp⟩, ?_⟩
      rintro br hbr
      obtain rfl := Option.some.inj hbr
      exact ⟨hp, hc, hf, hq, fun h => by simp at h, hK⟩
    rw [if_neg c1] at h
    have hcf : cur.f ≤ start.f := by
      have h1 := not_lt.1 (not_or.1 c1).1
      have h2 : 1e-4 * cur.t * start.gtd ≤ 0 :=
        mul_nonpos_of_nonneg_of_nonpos (mul_nonneg (by norm_num) (ht0.trans ht)) h0
      linarith
    by_cases c2 : |cur.gtd| ≤ -0.9 * start.gtd
    · rw [if_pos c2] at h
      obtain ⟨rfl, rfl⟩ := Prod.mk.inj h
      refine ⟨hne, by omega, ⟨[], by simp⟩, ?_⟩
      rintro br hbr
      obtain rfl := Option.some.inj hbr
      exact ⟨hc, hc, hcf, hq, fun _ => rfl, hK⟩
    rw [if_neg c2] at h
    by_cases c3 : 0 ≤ cur.gtd
    · rw [if_pos c3] at h
      obtain ⟨rfl, rfl⟩ := Prod.mk.inj h
      refine ⟨hne, by omega, ⟨[], by simp⟩, ?_⟩
      rintro br hbr
      obtain rfl := Option.some.inj hbr
      exact ⟨hp, hc, hf, hq, fun h => by simp at h, hK⟩
    rw [if_neg c3] at h
    rcases hci : cubicInterpolate prev.t prev.f prev.gtd cur.t cur.f cur.gtd (cur.t + 0.01 * (cur.t - prev.t)) (cur.t * 10)
      with _ | _ | _ | t <;> rw [hci] at h <;> simp only at h
    · obtain ⟨rfl, rfl⟩ := Prod.mk.inj h
      exact ⟨hne, by omega, ⟨[], by simp⟩, fun br hbr => by simp at hbr⟩
    · obtain ⟨rfl, rfl⟩ := Prod.mk.inj h
      exact ⟨hne, by omega, ⟨[], by simp⟩, fun br hbr => by simp at hbr⟩
    · obtain ⟨rfl, rfl⟩ := Prod.mk.inj h
      exact ⟨hne, by omega, ⟨[], by simp⟩, fun br hbr => by simp at hbr⟩
    · have hb := cubic_bounds (by nlinarith) hci
      obtain ⟨i1, i2, ⟨l, i3⟩, i4⟩ := ih (iter + 1) cur (trialAt F x d t) (qs ++ [x + t • d]) hc (onLine_trialAt F x d t)
        (show cur.t ≤ t by nlinarith [hb.1]) (ht0.trans ht) hcf (by simp [trialAt]) (by simp; omega) h
      exact ⟨i1, i2, ⟨[x + t • d] ++ l, by rw [i3, List.append_assoc]⟩, i4⟩

theorem zoom_spec (F : Oracle N) (x d : PVec N) (start : Trial N) (left : ℕ) (a b : Trial N) (low insuf : Bool)
    (qs : List (PVec N)) (ha : OnLine F x d a) (hb : OnLine F x d b) (hle : if low then a.f ≤ b.f else b.f ≤ a.f)
    (hf : (if low then a else b).f ≤ start.f) {y : PVec N} (hq : qs.getLast? = some y) (hy : (if low then a else b).f ≤ (F y).1)
    {K : ℕ} (hK : qs.length + left ≤ K) {r : List (PVec N)} {o : Option (Trial N)}
    (h : zoom F x d start left a b low insuf qs = (r, o)) :
    r ≠ [] ∧ r.length ≤ K ∧ (∃ l, r = qs ++ l) ∧
    ∀ p, o = some p → OnLine F x d p ∧ p.f ≤ start.f ∧ ∃ z, r.getLast? = some z ∧ p.f ≤ (F z).1 := by
  induction left generalizing a b low insuf qs y with
  | zero =>
    rw [zoom] at h
    obtain ⟨rfl, rfl⟩ := Prod.mk.inj h
    refine ⟨by rintro rfl; simp at hq, by omega, ⟨[], by simp⟩, ?_⟩
    rintro p hp
    obtain rfl := Option.some.inj hp
    refine ⟨?_, hf, y, hq, hy⟩
    cases low
    · exact hb
    · exact ha
  | succ left ih =>
    have hne : qs ≠ [] := by rintro rfl; simp at hq
    rw [zoom] at h
    by_cases c1 : |b.t - a.t| * ‖d‖ < 1e-9
    · rw [if_pos c1] at h
      obtain ⟨rfl, rfl⟩ := Prod.mk.inj h
      refine ⟨hne, by omega, ⟨[], by simp⟩, ?_⟩
      rintro p hp
      obtain rfl := Option.some.inj hp
      refine ⟨?_, hf, y, hq, hy⟩
      cases low
      · exact hb
      · exact ha
    rw [if_neg c1] at h
    rcases hci : cubicInterpolate a.t a.f a.gtd b.t b.f b.gtd (min a.t b.t) (max a.t b.t) with _ | _ | _ | t0 <;>
      rw [hci] at h <;> simp only at h
    · obtain ⟨rfl, rfl⟩ := Prod.mk.inj h
      exact ⟨hne, by omega, ⟨[], by simp⟩, fun br hbr => by simp at hbr⟩
    · obtain ⟨rfl, rfl⟩ := Prod.mk.inj h
      exact ⟨hne, by omega, ⟨[], by simp⟩, fun br hbr => by simp at hbr⟩
    · obtain ⟨rfl, rfl⟩ := Prod.mk.inj h
      exact ⟨hne, by omega, ⟨[], by simp⟩, fun br hbr => by simp at hbr⟩
    · set w := safeguard (min a.t b.t) (max a.t b.t) t0 insuf with hw
      set p := trialAt F x d w.1 with hp
      have hpl : OnLine F x d p := onLine_trialAt F x d w.1
      have hpf : p.f = (F (x + w.1 • d)).1 := rfl
      have hql : (qs ++ [x + w.1 • d]).getLast? = some (x + w.1 • d) := by simp
      have hKl : (qs ++ [x + w.1 • d]).length + left ≤ K := by simp; omega
      have fin' : ∀ {A B : Trial N} {lw : Bool},
          OnLine F x d A → OnLine F x d B → (if lw then A.f ≤ B.f else B.f ≤ A.f) → (if lw then A else B).f ≤ start.f →
          (if lw then A else B).f ≤ p.f → zoom F x d start left A B lw w.2 (qs ++ [x + w.1 • d]) = (r, o) →
          r ≠ [] ∧ r.length ≤ K ∧ (∃ l, r = qs ++ l) ∧
          ∀ p, o = some p → OnLine F x d p ∧ p.f ≤ start.f ∧ ∃ z, r.getLast? = some z ∧ p.f ≤ (F z).1 := by
        intro A B lw h1 h2 h3 h4 h5 h6
        obtain ⟨i1, i2, ⟨l, i3⟩, i4⟩ := ih A B lw w.2 (qs ++ [x + w.1 • d]) h1 h2 h3 h4 hql (hpf ▸ h5) hKl h6
        exact ⟨i1, i2, ⟨[x + w.1 • d] ++ l, by rw [i3, List.append_assoc]⟩, i4⟩
      by_cases c2 : start.f + 1e-4 * p.t * start.gtd < p.f ∨ (if low = true then a else b).f ≤ p.f
      · rw [if_pos c2] at h
        cases low
        · simp only [Bool.false_eq_true, if_false] at h hf hle hy
          refine fin' hpl hb ?_ ?_ ?_ h
          · by_cases c : p.f ≤ b.f
            · simpa [c] using c
            · simp only [c, decide_false, Bool.false_eq_true, if_false]; exact (not_le.1 c).le
          · by_cases c : p.f ≤ b.f
            · simpa [c] using c.trans hf
            · simpa [c] using hf
          · by_cases c : p.f ≤ b.f
            · simp [c]
            · simpa [c] using (not_le.1 c).le
        · simp only [if_true] at h hf hle hy
          refine fin' ha hpl ?_ ?_ ?_ h
          · by_cases c : a.f ≤ p.f
            · simpa [c] using c
            · simp only [c, decide_false, Bool.false_eq_true, if_false]; exact (not_le.1 c).le
          · by_cases c : a.f ≤ p.f
            · simpa [c] using hf
            · simpa [c] using (not_le.1 c).le.trans hf
          · by_cases c : a.f ≤ p.f
            · simpa [c] using c
            · simp [c]
      rw [if_neg c2] at h
      have hlt : p.f < (if low = true then a else b).f := not_le.1 (not_or.1 c2).2
      by_cases c3 : |p.gtd| ≤ -0.9 * start.gtd
      · rw [if_pos c3] at h
        obtain ⟨rfl, rfl⟩ := Prod.mk.inj h
        refine ⟨by simp, by simp; omega, ⟨[x + w.1 • d], rfl⟩, ?_⟩
        rintro p' hp'
        obtain rfl := Option.some.inj hp'
        exact ⟨hpl, hlt.le.trans hf, x + w.1 • d, hql, hpf.le⟩
      rw [if_neg c3] at h
      cases low
      · simp only [Bool.false_eq_true, if_false] at h hf hle hy hlt
        refine fin' ?_ hpl ?_ ?_ ?_ h
        · split
          · exact hb
          · exact ha
        · simp only [Bool.false_eq_true, if_false]
          split
          · exact hlt.le
          · exact hlt.le.trans hle
        · simpa using hlt.le.trans hf
        · simp
      · simp only [if_true] at h hf hle hy hlt
        refine fin' hpl ?_ ?_ ?_ ?_ h
        · split
          · exact ha
          · exact hb
        · simp only [if_true]
          split
          · exact hlt.le
          · exact hlt.le.trans hle
        · simpa using hlt.le.trans hf
        · simp

/-- The line search evaluates between 1 and 26 points; the loss at the accepted point exceeds neither that at the start nor that at
the point evaluated last. -/
theorem strongWolfe_spec (F : Oracle N) (x d : PVec N) {t f gtd : ℝ} {g : PVec N} (ht : 0 ≤ t) (hf : f = (F x).1)
    (hg : g = (F x).2) (hgtd : gtd = g ⬝ᵥ d) (h0 : gtd ≤ 0) {r : List (PVec N)} {o : Option (Trial N)}
    (h : strongWolfe F x d t f g gtd = (r, o)) :
    r ≠ [] ∧ r.length ≤ 26 ∧ (∃ l, r = (x + t • d) :: l) ∧
    ∀ p, o = some p → OnLine F x d p ∧ p.f ≤ f ∧ ∃ z, r.getLast? = some z ∧ p.f ≤ (F z).1 := by
  have hs : OnLine F x d ⟨0, f, g, gtd⟩ := ⟨by simp [hf], by simp [hg], hgtd⟩
  unfold strongWolfe at h
  simp only at h
  rcases hbr : bracketing F x d ⟨0, f, g, gtd⟩ 25 0 ⟨0, f, g, gtd⟩ (trialAt F x d t) [x + t • d] with ⟨qs, _ | br⟩
  · rw [hbr] at h
    obtain ⟨rfl, rfl⟩ := Prod.mk.inj h
    obtain ⟨i1, i2, ⟨l, i3⟩, -⟩ := bracketing_spec F x d hs h0 25 0 _ _ _ hs (onLine_trialAt F x d t) ht le_rfl le_rfl (by simp [trialAt])
      (K := 26) (by simp) hbr
    exact ⟨i1, i2, ⟨l, i3⟩, fun p hp => by simp at hp⟩
  · rw [hbr] at h
    simp only at h
    obtain ⟨i1, i2, ⟨l, i3⟩, i4⟩ := bracketing_spec F x d hs h0 25 0 _ _ _ hs (onLine_trialAt F x d t) ht le_rfl le_rfl (by simp [trialAt])
      (K := 26) (by simp) hbr
    obtain ⟨j1, j2, j3, j4, j5, j6⟩ := i4 br rfl
    by_cases hd : br.done = true
    · rw [if_pos hd] at h
      obtain ⟨rfl, rfl⟩ := Prod.mk.inj h
      refine ⟨i1, i2, ⟨l, i3⟩, ?_⟩
      rintro p hp
      obtain rfl := Option.some.inj hp
      refine ⟨j1, j3, _, j4, ?_⟩
      rw [j5 hd]
      exact j2.1.le
    · rw [if_neg hd] at h
      obtain ⟨k1, k2, ⟨m, k3⟩, k4⟩ := zoom_spec F x d ⟨0, f, g, gtd⟩ br.left br.a br.b (decide (br.a.f ≤ br.b.f)) false qs j1 j2
        (by by_cases c : br.a.f ≤ br.b.f
            · simpa [c] using c
            · simpa [c] using (not_le.1 c).le)
        (by by_cases c : br.a.f ≤ br.b.f
            · simpa [c] using j3
            · simpa [c] using (not_le.1 c).le.trans j3) j4
        (by rw [← j2.1]
            by_cases c : br.a.f ≤ br.b.f
            · simpa [c] using c
            · simp [c]) j6 h
      exact ⟨k1, k2, ⟨l ++ m, by rw [k3, i3]; rfl⟩, k4⟩

/-! ### Iterations -/

theorem lbDirection_step {histSize : ℕ} {lr : ℝ} (hlr : 0 ≤ lr) (mem : Option (LbMem N)) (g : PVec N) :
    0 ≤ (lbDirection histSize lr mem g).2.1 ∧ (lbDirection histSize lr mem g).2.1 ≤ lr := by
  unfold lbDirection
  cases mem with
  | none =>
    simp only
    have h0 : 0 ≤ min 1 (1 / ∑ i, |g i|) := le_min zero_le_one (by positivity)
    exact ⟨mul_nonneg h0 hlr, mul_le_of_le_one_left hlr (min_le_left _ _)⟩
  | some m => exact ⟨hlr, le_rfl⟩

theorem lbLoop_spec (F : Oracle N) (histSize maxEval : ℕ) {lr : ℝ} (hlr : 0 ≤ lr) (left evals : ℕ) (mem : Option (LbMem N))
    (x : PVec N) {loss : ℝ} {g : PVec N} (qs : List (PVec N)) (hf : loss = (F x).1) (hg : g = (F x).2) (hev : evals = qs.length)
    {z : PVec N} (hz : qs.getLast? = some z) (hzf : (F x).1 ≤ (F z).1) (hb : evals ≤ max 1 (maxEval - 1)) {o : LbOut N}
    (h : lbLoop F histSize maxEval lr left evals mem x loss g qs = o) :
    o.queries.length ≤ max 1 (maxEval - 1) + 26 ∧ (∃ l, o.queries = qs ++ l) ∧
    ∀ x' m, o.result = some (x', m) → (F x').1 ≤ loss ∧ ∃ z, o.queries.getLast? = some z ∧ (F x').1 ≤ (F z).1 := by
  induction left generalizing evals mem x loss g qs z with
  | zero =>
    rw [lbLoop] at h
    subst h
    refine ⟨by simp only; omega, ⟨[], by simp⟩, ?_⟩
    rintro x' m hx
    simp only [Option.some.injEq, Prod.mk.injEq] at hx
    obtain ⟨rfl, -⟩ := hx
    exact ⟨hf.ge, z, hz, hzf⟩
  | succ left ih =>
    rw [lbLoop] at h
    simp only at h
    set dir := lbDirection histSize lr mem g with hdir
    by_cases c1 : -1e-9 < g ⬝ᵥ dir.1
    · rw [if_pos c1] at h
      subst h
      refine ⟨by simp only; omega, ⟨[], by simp⟩, ?_⟩
      rintro x' m hx
      simp only [Option.some.injEq, Prod.mk.injEq] at hx
      obtain ⟨rfl, -⟩ := hx
      exact ⟨hf.ge, z, hz, hzf⟩
    rw [if_neg c1] at h
    have hneg : g ⬝ᵥ dir.1 ≤ 0 := (not_lt.1 c1).trans (by norm_num)
    rcases hsw : strongWolfe F x dir.1 dir.2.1 loss g (g ⬝ᵥ dir.1) with ⟨ls, _ | p⟩
    · rw [hsw] at h
      simp only at h
      obtain ⟨i1, i2, -, -⟩ := strongWolfe_spec F x dir.1 (lbDirection_step hlr mem g).1 hf hg rfl hneg hsw
      subst h
      refine ⟨by simp only [List.length_append]; omega, ⟨ls, rfl⟩, fun x' m hx => by simp at hx⟩
    · rw [hsw] at h
      simp only at h
      obtain ⟨i1, i2, -, i4⟩ := strongWolfe_spec F x dir.1 (lbDirection_step hlr mem g).1 hf hg rfl hneg hsw
      obtain ⟨j1, j2, z', j3, j4⟩ := i4 p rfl
      have hzl : (qs ++ ls).getLast? = some z' := by
        rw [List.getLast?_append, j3]; rfl
      by_cases c2 : left = 0 ∨ maxEval ≤ evals + ls.length ∨ ‖p.g‖ ≤ 1e-7 ∨ ‖p.t • dir.1‖ ≤ 1e-9 ∨ |p.f - loss| < 1e-9
      · rw [if_pos c2] at h
        subst h
        refine ⟨by simp only [List.length_append]; omega, ⟨ls, rfl⟩, ?_⟩
        rintro x' m hx
        simp only [Option.some.injEq, Prod.mk.injEq] at hx
        obtain ⟨rfl, -⟩ := hx
        rw [← j1.1]
        exact ⟨j2, z', hzl, j4⟩
      · rw [if_neg c2] at h
        have hlt := not_le.1 (not_or.1 (not_or.1 c2).2).1
        obtain ⟨k1, ⟨l, k2⟩, k3⟩ := ih (evals + ls.length) _ _ (qs ++ ls) j1.1 j1.2.1 (by simp [hev]) hzl (by rw [← j1.1]; exact j4)
          (by omega) h
        refine ⟨k1, ⟨ls ++ l, by rw [k2, List.append_assoc]⟩, fun x' m hx => ?_⟩
        obtain ⟨m1, m2⟩ := k3 x' m hx
        exact ⟨m1.trans j2, m2⟩

/-- **C118** One `step` of the default optimiser never leaves parameters with a larger objective than it found, whatever the gradients
it is given, and the objective there does not exceed the value at the point evaluated last (the one a fit reports).  The closure is
evaluated first at the current parameters, and at most `max(1, ⌊5 max_iter / 4⌋ - 1) + 26` times. -/
theorem C118_step (F : Oracle N) (maxIter histSize : ℕ) {lr : ℝ} (hlr : 0 ≤ lr) (mem : Option (LbMem N)) (x : PVec N) :
    (lbStep F maxIter histSize lr mem x).queries.length ≤ max 1 (maxIter * 5 / 4 - 1) + 26 ∧
    (lbStep F maxIter histSize lr mem x).queries.head? = some x ∧
    ∀ x' m, (lbStep F maxIter histSize lr mem x).result = some (x', m) → (F x').1 ≤ (F x).1 ∧
      ∃ z, (lbStep F maxIter histSize lr mem x).queries.getLast? = some z ∧ (F x').1 ≤ (F z).1 := by
  by_cases c : ‖(F x).2‖ ≤ 1e-7
  · have : lbStep F maxIter histSize lr mem x = ⟨[x], some (x, mem)⟩ := by unfold lbStep; rw [if_pos c]
    rw [this]
    refine ⟨by simp, rfl, ?_⟩
    rintro x' m hx
    simp only [Option.some.injEq, Prod.mk.injEq] at hx
    obtain ⟨rfl, -⟩ := hx
    exact ⟨le_rfl, x, rfl, le_rfl⟩
  · have : lbStep F maxIter histSize lr mem x =
        lbLoop F histSize (maxIter * 5 / 4) lr maxIter 1 mem x (F x).1 (F x).2 [x] := by unfold lbStep; rw [if_neg c]
    rw [this]
    obtain ⟨h1, ⟨l, h2⟩, h3⟩ := lbLoop_spec F histSize (maxIter * 5 / 4) hlr maxIter 1 mem x [x] rfl rfl rfl (z := x) rfl le_rfl
      (le_max_left _ _) rfl
    exact ⟨h1, by rw [h2]; rfl, h3⟩

end
end Verif
