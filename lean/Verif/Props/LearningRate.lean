import Mathlib.Analysis.SpecialFunctions.Trigonometric.Bounds
import Verif.Model.Adam
import Verif.Props.Gradients

/-!
# C108, C109: the learning rate of a fit, and how far Adam can move the parameters
-/

namespace Verif
open Fl

noncomputable section

/-! ### C108: learning rate -/

/-- Half a cosine wave over the fit: 1 before the first epoch, 0 after epoch `T`. -/
def Spec.anneal (T e : ℕ) : ℝ := (1 + Real.cos (Real.pi * e / T)) / 2

/-- Product of the reductions up to the end of epoch `e`. -/
def Spec.reductions (ev : List (ℕ × ℝ)) (e : ℕ) : ℝ := ((ev.filter fun q => 1 ≤ q.1 ∧ q.1 ≤ e).map Prod.snd).prod

theorem anneal_pos {T e : ℕ} (h : e < T) : 0 < Spec.anneal T e := by
  unfold Spec.anneal
  have hT : (0 : ℝ) < T := by exact_mod_cast (by omega : 0 < T)
  have h1 : Real.pi * e / T < Real.pi := by
    rw [div_lt_iff₀ hT]
    exact mul_lt_mul_of_pos_left (by exact_mod_cast h) Real.pi_pos
  have h2 : -1 < Real.cos (Real.pi * e / T) := by
    rw [← Real.cos_pi]
    exact Real.cos_lt_cos_of_nonneg_of_le_pi (by positivity) le_rfl h1
  linarith

theorem anneal_antitone {T a b : ℕ} (hab : a ≤ b) (hb : b ≤ T) : Spec.anneal T b ≤ Spec.anneal T a := by
  unfold Spec.anneal
  rcases Nat.eq_zero_or_pos T with h | h
  · subst h; simp
  have hT : (0 : ℝ) < T := by exact_mod_cast h
  have h2 : Real.cos (Real.pi * b / T) ≤ Real.cos (Real.pi * a / T) := by
    refine Real.cos_le_cos_of_nonneg_of_le_pi (by positivity) ?_ ?_
    · rw [div_le_iff₀ hT]
      exact mul_le_mul_of_nonneg_left (by exact_mod_cast hb) Real.pi_pos.le
    · rw [div_le_div_iff_of_pos_right hT]
      exact mul_le_mul_of_nonneg_left (by exact_mod_cast hab) Real.pi_pos.le
  linarith

theorem anneal_zero (T : ℕ) : Spec.anneal T 0 = 1 := by simp [Spec.anneal]

theorem anneal_last {T : ℕ} (h : 0 < T) : Spec.anneal T T = 0 := by
  have hT : (T : ℝ) ≠ 0 := by exact_mod_cast h.ne'
  unfold Spec.anneal
  rw [mul_div_assoc, div_self hT, mul_one, Real.cos_pi]
  norm_num

theorem foldl_mul (l : List (ℕ × ℝ)) (x : ℝ) : l.foldl (fun a q => a * q.2) x = x * (l.map Prod.snd).prod := by
  induction l generalizing x with
  | nil => simp
  | cons q l ih => rw [List.foldl_cons, ih, List.map_cons, List.prod_cons, mul_assoc]

theorem reductions_succ (ev : List (ℕ × ℝ)) (e : ℕ) :
    Spec.reductions ev (e + 1) = Spec.reductions ev e * ((ev.filter fun q => q.1 = e + 1).map Prod.snd).prod := by
  unfold Spec.reductions
  induction ev with
  | nil => simp
  | cons q ev ih =>
    by_cases h1 : 1 ≤ q.1 ∧ q.1 ≤ e
    · have h2 : 1 ≤ q.1 ∧ q.1 ≤ e + 1 := ⟨h1.1, by omega⟩
      have h3 : ¬ q.1 = e + 1 := by omega
      rw [List.filter_cons_of_pos (by simpa using h2), List.filter_cons_of_pos (by simpa using h1),
        List.filter_cons_of_neg (by simpa using h3), List.map_cons, List.prod_cons, List.map_cons, List.prod_cons, ih, mul_assoc]
    · by_cases h3 : q.1 = e + 1
      · have h2 : 1 ≤ q.1 ∧ q.1 ≤ e + 1 := by omega
        rw [List.filter_cons_of_pos (by simpa using h2), List.filter_cons_of_neg (by simpa using h1),
          List.filter_cons_of_pos (by simpa using h3), List.map_cons, List.prod_cons, List.map_cons, List.prod_cons, ih]
        ring
      · have h2 : ¬ (1 ≤ q.1 ∧ q.1 ≤ e + 1) := by omega
        rw [List.filter_cons_of_neg (by simpa using h2), List.filter_cons_of_neg (by simpa using h1),
          List.filter_cons_of_neg (by simpa using h3), ih]

/-- **C108** The learning rate at the end of epoch `e` (that is, during epoch `e + 1`) is the configured one times half a cosine wave times
the reductions made so far: reductions persist, although the scheduler sets the rate anew in every epoch. -/
theorem C108_rate (base : ℝ) {T e : ℕ} (he : e ≤ T) (ev : List (ℕ × ℝ)) :
    rateAfter base T ev e = base * Spec.anneal T e * Spec.reductions ev e := by
  induction e with
  | zero =>
    have : Spec.reductions ev 0 = 1 := by
      unfold Spec.reductions
      rw [List.filter_eq_nil_iff.2 (by intro q _; simp; omega)]
      rfl
    rw [rateAfter, anneal_zero, this, mul_one, mul_one]
  | succ e ih =>
    rw [rateAfter, foldl_mul, reductions_succ, ih (by omega)]
    have hc : ¬ (((e + 1 : ℕ) : ℤ) - 1 - T) % (2 * T) = 0 := by
      have e1 : (((e + 1 : ℕ) : ℤ) - 1 - T) = (e : ℤ) - T := by push_cast; ring
      rw [e1]
      intro h
      obtain ⟨c, hc⟩ := Int.dvd_of_emod_eq_zero h
      have h1 : (e : ℤ) < T := by exact_mod_cast he
      have h2 : (0 : ℤ) ≤ e := by positivity
      have h3 : (0 : ℤ) < T := by linarith
      have hc1 : c < 0 := by
        by_contra hn
        have : 0 ≤ 2 * (T : ℤ) * c := by have := not_lt.1 hn; positivity
        linarith
      nlinarith
    unfold cosineStep
    rw [if_neg hc]
    have hp := anneal_pos (T := T) (e := e) (by omega)
    have e2 : (1 + Real.cos (Real.pi * (((e + 1 : ℕ) : ℝ) - 1) / T)) = 2 * Spec.anneal T e := by
      unfold Spec.anneal
      push_cast
      rw [add_sub_cancel_right]
      ring
    have e3 : (1 + Real.cos (Real.pi * ((e + 1 : ℕ) : ℝ) / T)) = 2 * Spec.anneal T (e + 1) := by
      unfold Spec.anneal
      ring
    rw [e2, e3]
    field_simp

/-- Reductions lie in `(0, 1]`. -/
def Spec.Reducing (ev : List (ℕ × ℝ)) : Prop := ∀ q ∈ ev, 0 < q.2 ∧ q.2 ≤ 1

theorem prod_unit (l : List ℝ) (h : ∀ x ∈ l, 0 < x ∧ x ≤ 1) : 0 < l.prod ∧ l.prod ≤ 1 := by
  induction l with
  | nil => simp
  | cons x l ih =>
    have h1 := h x (by simp)
    have h2 := ih fun y hy => h y (by simp [hy])
    rw [List.prod_cons]
    exact ⟨mul_pos h1.1 h2.1, mul_le_one₀ h1.2 h2.1.le h2.2⟩

theorem reductions_unit {ev : List (ℕ × ℝ)} (h : Spec.Reducing ev) (e : ℕ) :
    0 < Spec.reductions ev e ∧ Spec.reductions ev e ≤ 1 := by
  refine prod_unit _ fun x hx => ?_
  obtain ⟨q, hq, rfl⟩ := List.mem_map.1 hx
  exact h q (List.mem_of_mem_filter hq)

/-- **C108** So during a fit the rate is positive and at most the configured one, never increases, and is zero only after the last epoch. -/
theorem C108_monotone {base : ℝ} (hb : 0 < base) {T : ℕ} {ev : List (ℕ × ℝ)} (h : Spec.Reducing ev) :
    (∀ e < T, 0 < rateAfter base T ev e ∧ rateAfter base T ev e ≤ base * Spec.anneal T e) ∧
    (∀ e < T, rateAfter base T ev (e + 1) ≤ rateAfter base T ev e) ∧ (0 < T → rateAfter base T ev T = 0) := by
  refine ⟨fun e he => ?_, fun e he => ?_, fun hT => ?_⟩
  · rw [C108_rate base he.le]
    have h1 := anneal_pos he
    have h2 := reductions_unit h e
    exact ⟨mul_pos (mul_pos hb h1) h2.1, mul_le_of_le_one_right (by positivity) h2.2⟩
  · rw [C108_rate base he.le, C108_rate base (by omega : e + 1 ≤ T)]
    have h1 := anneal_pos he
    have h3 := anneal_antitone (T := T) (Nat.le_succ e) he
    have h2 := reductions_unit h e
    have h4 : Spec.reductions ev (e + 1) ≤ Spec.reductions ev e := by
      rw [reductions_succ]
      refine mul_le_of_le_one_right h2.1.le (prod_unit _ fun x hx => ?_).2
      obtain ⟨q, hq, rfl⟩ := List.mem_map.1 hx
      exact h q (List.mem_of_mem_filter hq)
    have h5 := reductions_unit h (e + 1)
    exact mul_le_mul (mul_le_mul_of_nonneg_left h3 hb.le) h4 h5.1.le (by positivity)
  · rw [C108_rate base le_rfl, anneal_last hT]
    ring

/-- The half cosine wave sums to `(T + 1) / 2`. -/
theorem anneal_sum {T : ℕ} (hT : 0 < T) : ∑ e ∈ Finset.range T, Spec.anneal T e = (T + 1) / 2 := by
  have hT' : (T : ℝ) ≠ 0 := by exact_mod_cast hT.ne'
  obtain ⟨n, rfl⟩ : ∃ n, T = n + 1 := ⟨T - 1, by omega⟩
  have key : ∑ e ∈ Finset.range n, Real.cos (Real.pi * ((e + 1 : ℕ) : ℝ) / ((n + 1 : ℕ) : ℝ)) = 0 := by
    have h := Finset.sum_range_reflect (fun e : ℕ => Real.cos (Real.pi * ((e + 1 : ℕ) : ℝ) / ((n + 1 : ℕ) : ℝ))) n
    have h' : ∀ e ∈ Finset.range n, Real.cos (Real.pi * (((n - 1 - e) + 1 : ℕ) : ℝ) / ((n + 1 : ℕ) : ℝ)) =
        - Real.cos (Real.pi * ((e + 1 : ℕ) : ℝ) / ((n + 1 : ℕ) : ℝ)) := by
      intro e he
      have he' := Finset.mem_range.1 he
      rw [← Real.cos_pi_sub]
      congr 1
      have e1 : (((n - 1 - e) + 1 : ℕ) : ℝ) = ((n + 1 : ℕ) : ℝ) - ((e + 1 : ℕ) : ℝ) := by
        rw [← Nat.cast_sub (by omega)]
        congr 1
        omega
      rw [e1]
      field_simp
    rw [Finset.sum_congr rfl h', Finset.sum_neg_distrib] at h
    linarith
  unfold Spec.anneal
  rw [← Finset.sum_div, Finset.sum_add_distrib, Finset.sum_range_succ' (fun e : ℕ => Real.cos (Real.pi * (e : ℝ) / _)), key]
  simp

/-- **C108** The rates of all epochs of a fit add up to at most `(T + 1) / 2` times the configured rate, with equality if no
reduction was made. -/
theorem C108_total {base : ℝ} (hb : 0 < base) {T : ℕ} (hT : 0 < T) {ev : List (ℕ × ℝ)} (h : Spec.Reducing ev) :
    ∑ e ∈ Finset.range T, rateAfter base T ev e ≤ base * ((T + 1) / 2) ∧
    (ev = [] → ∑ e ∈ Finset.range T, rateAfter base T ev e = base * ((T + 1) / 2)) := by
  rw [← anneal_sum hT, Finset.mul_sum]
  constructor
  · exact Finset.sum_le_sum fun e he => ((C108_monotone hb h).1 e (Finset.mem_range.1 he)).2
  · rintro rfl
    refine Finset.sum_congr rfl fun e he => ?_
    rw [C108_rate base (Finset.mem_range.1 he).le]
    simp [Spec.reductions]

/-! ### C109: how far Adam can move the parameters -/

theorem adamMoments_append (gs : List ℝ) (g : ℝ) : adamMoments (gs ++ [g]) =
    ((adamMoments gs).1 + (g - (adamMoments gs).1) * (1 - 0.9), 0.999 * (adamMoments gs).2 + (1 - 0.999) * (g * g)) := by
  unfold adamMoments
  rw [List.foldl_append]
  rfl

theorem moments_bound (gs : List ℝ) : 0 ≤ (adamMoments gs).2 ∧ (adamMoments gs).1 ^ 2 ≤ 53 * (adamMoments gs).2 := by
  induction gs using List.reverseRecOn with
  | nil => simp [adamMoments]
  | append_singleton gs g ih =>
    rw [adamMoments_append]
    obtain ⟨h1, h2⟩ := ih
    set m := (adamMoments gs).1
    set v := (adamMoments gs).2
    refine ⟨by nlinarith [mul_self_nonneg g], ?_⟩
    simp only
    nlinarith [sq_nonneg (m - g / 2), sq_nonneg (21 * m - 10 * g), mul_self_nonneg g, sq_nonneg m]

theorem bias_bound {t : ℕ} (ht : 1 ≤ t) : (1 : ℝ) - 0.999 ^ t ≤ (1 - 0.9 ^ t) ^ 2 := by
  rcases Nat.lt_or_ge t 7 with h | h
  · interval_cases t <;> norm_num
  · have key : ∀ n : ℕ, 2 * (0.9 : ℝ) ^ (n + 7) ≤ 0.999 ^ (n + 7) := by
      intro n
      induction n with
      | zero => norm_num
      | succ n ih =>
        have e1 : (0.9 : ℝ) ^ (n + 1 + 7) = 0.9 * 0.9 ^ (n + 7) := by ring
        have e2 : (0.999 : ℝ) ^ (n + 1 + 7) = 0.999 * 0.999 ^ (n + 7) := by ring
        have p : (0 : ℝ) < 0.999 ^ (n + 7) := by positivity
        rw [e1, e2]
        linarith
    have := key (t - 7)
    rw [show t - 7 + 7 = t by omega] at this
    nlinarith [sq_nonneg ((0.9 : ℝ) ^ t)]

/-- **C109** Whatever the gradients, one step of Adam changes no parameter by more than 7.3 times the learning rate. -/
theorem C109_step {lr : ℝ} (hlr : 0 ≤ lr) (gs : List ℝ) : |adamDelta lr gs| ≤ 7.3 * lr := by
  unfold adamDelta
  rcases Nat.eq_zero_or_pos gs.length with h0 | h0
  · have : gs = [] := List.length_eq_zero_iff.1 h0
    subst this
    simp
    positivity
  obtain ⟨hv, hm⟩ := moments_bound gs
  set m := (adamMoments gs).1
  set v := (adamMoments gs).2
  set t := gs.length
  have hb := bias_bound h0
  have b1 : (0 : ℝ) < 1 - 0.9 ^ t := by
    have : (0.9 : ℝ) ^ t < 1 := pow_lt_one₀ (by norm_num) (by norm_num) (by omega)
    linarith
  have b2 : (0 : ℝ) < 1 - 0.999 ^ t := by
    have : (0.999 : ℝ) ^ t < 1 := pow_lt_one₀ (by norm_num) (by norm_num) (by omega)
    linarith
  have s2 := Real.sqrt_pos.2 b2
  have hsb : Real.sqrt (1 - 0.999 ^ t) ≤ 1 - 0.9 ^ t := by
    rw [Real.sqrt_le_left b1.le]
    exact hb
  have hmv : |m| ≤ 7.3 * Real.sqrt v := by
    refine abs_le_of_sq_le_sq ?_ (by positivity) |> fun h => h
    rw [mul_pow, Real.sq_sqrt hv]
    nlinarith
  have hd : 0 < Real.sqrt v / Real.sqrt (1 - 0.999 ^ t) + 1e-8 := by positivity
  rw [abs_mul, abs_div, abs_div, abs_of_nonneg hlr, abs_of_pos b1, abs_of_pos hd, div_mul_div_comm, div_le_iff₀ (mul_pos b1 hd)]
  have h1 : Real.sqrt v ≤ (1 - 0.9 ^ t) * (Real.sqrt v / Real.sqrt (1 - 0.999 ^ t)) := by
    rw [mul_div_assoc', le_div_iff₀ s2, mul_comm]
    exact mul_le_mul_of_nonneg_right hsb (Real.sqrt_nonneg _)
  have h2 : |m| ≤ 7.3 * ((1 - 0.9 ^ t) * (Real.sqrt v / Real.sqrt (1 - 0.999 ^ t) + 1e-8)) := by
    nlinarith
  calc lr * |m| ≤ lr * (7.3 * ((1 - 0.9 ^ t) * (Real.sqrt v / Real.sqrt (1 - 0.999 ^ t) + 1e-8))) :=
        mul_le_mul_of_nonneg_left h2 hlr
    _ = _ := by ring

/-- **C109** In the first step every parameter moves by less than the learning rate, against the sign of its gradient. -/
theorem C109_first_step (lr g : ℝ) : adamDelta lr [g] = lr * g / (|g| + 1e-8) := by
  have e : adamMoments [g] = (g * (1 - 0.9), (1 - 0.999) * (g * g)) := by
    simp [adamMoments]
  unfold adamDelta
  rw [e]
  simp only [List.length_singleton, pow_one]
  have h : Real.sqrt ((1 - 0.999) * (g * g)) / Real.sqrt (1 - 0.999) = |g| := by
    rw [Real.sqrt_mul (by norm_num), Real.sqrt_mul_self_eq_abs, mul_comm, mul_div_assoc, div_self, mul_one]
    exact (Real.sqrt_pos.2 (by norm_num)).ne'
  rw [h]
  have : (0 : ℝ) < |g| + 1e-8 := by positivity
  field_simp

theorem traceG_prefix (cfg : TrainCfg) (D : GradRule) (O : GradOpt) (n e : ℕ) (hist : List (List ℝ × List Fl)) (st : TrainState) :
    hist <+: traceG cfg D O e n hist st := by
  induction n generalizing e hist st with
  | zero => exact List.prefix_rfl
  | succ n ih =>
    rw [traceG]
    have h0 : ∀ x : List ℝ × List Fl, hist <+: hist ++ [x] := fun x => List.prefix_append _ _
    rcases runEpoch cfg e (O.optStep cfg D e hist st) st with ⟨err | b, st'⟩
    · exact h0 _
    · cases b with
      | true => exact h0 _
      | false => exact (h0 _).trans (ih _ _ _)

theorem rate_le {base : ℝ} (hb : 0 ≤ base) {T e : ℕ} (he : e ≤ T) {ev : List (ℕ × ℝ)} (h : Spec.Reducing ev) :
    0 ≤ rateAfter base T ev e ∧ rateAfter base T ev e ≤ base * Spec.anneal T e := by
  have h0 : 0 ≤ Spec.anneal T e := by
    unfold Spec.anneal
    linarith [Real.neg_one_le_cos (Real.pi * e / T)]
  have h2 := reductions_unit h e
  rw [C108_rate base he]
  exact ⟨mul_nonneg (mul_nonneg hb h0) h2.1.le, mul_le_of_le_one_right (mul_nonneg hb h0) h2.2⟩

theorem adam_epochs {cfg : TrainCfg} {D : GradRule} {O : GradOpt} {base : ℝ} {T N : ℕ} (hb : 0 ≤ base) (hO : O.IsAdam base T N)
    (hL : O.Legal N) (m e : ℕ) (hist : List (List ℝ × List Fl)) {st r : TrainState}
    (hN : (st.ops.paramVec cfg.prob.learnNu).length = N) (hev : Spec.Reducing st.lrEvents) (he : e + m ≤ T)
    (h : runEpochsG cfg D O (e + 1) m hist st = (.ok (), r))
    (hfin : ∀ p ∈ traceG cfg D O (e + 1) m hist st, ∀ g ∈ p.2, g.IsFin) {i : ℕ} (hi : i < N) :
    |(r.ops.paramVec cfg.prob.learnNu).getD i 0 - (st.ops.paramVec cfg.prob.learnNu).getD i 0| ≤
      7.3 * ∑ k ∈ Finset.range m, base * Spec.anneal T (e + k) := by
  induction m generalizing e hist st with
  | zero =>
    simp only [runEpochsG, Prod.mk.injEq, true_and] at h
    rw [← h]
    simp
  | succ m ih =>
    set θ := st.ops.paramVec cfg.prob.learnNu with hθ
    have hq : O.optStep cfg D (e + 1) hist st =
      ⟨[θ], O.step (e + 1) st.lrEvents (hist ++ [(θ, backward cfg D st.ops θ)])⟩ := rfl
    have hf : ∀ p ∈ hist ++ [(θ, backward cfg D st.ops θ)], ∀ g ∈ p.2, g.IsFin := by
      intro p hp
      refine hfin p ?_
      rw [traceG]
      rcases runEpoch cfg (e + 1) (O.optStep cfg D (e + 1) hist st) st with ⟨err | b, st'⟩
      · exact hp
      · cases b with
        | true => exact hp
        | false => exact (traceG_prefix cfg D O m (e + 1 + 1) _ st').subset hp
    rw [runEpochsG] at h
    rw [traceG] at hfin
    have t1 := runEpoch_ghost cfg (e + 1) (O.optStep cfg D (e + 1) hist st) st
    rcases hre : runEpoch cfg (e + 1) (O.optStep cfg D (e + 1) hist st) st with ⟨err | b, u⟩
    · rw [hre] at h; simp at h
    rw [hre] at h t1 hfin
    simp only at h t1 hfin
    have hu : u.ops.paramVec cfg.prob.learnNu = adamStep base T N (e + 1) st.lrEvents (hist ++ [(θ, backward cfg D st.ops θ)]) := by
      rw [hq] at hre
      rw [(runEpoch_single hre).2, paramVec_setVec]
      · exact hO _ _ _ hf
      · rw [hL, (arch_closure (cfg := cfg) rfl (θ := θ) (st := st) rfl).length, hN]
    have hstep : |(u.ops.paramVec cfg.prob.learnNu).getD i 0 - θ.getD i 0| ≤ 7.3 * (base * Spec.anneal T e) := by
      rw [hu]
      have : (adamStep base T N (e + 1) st.lrEvents (hist ++ [(θ, backward cfg D st.ops θ)])).getD i 0 =
          θ.getD i 0 - adamDelta (rateAfter base T st.lrEvents e) (adamGrads (hist ++ [(θ, backward cfg D st.ops θ)]) i) := by
        unfold adamStep
        simp [hi]
      rw [this, sub_sub_cancel_left, abs_neg]
      have hr := rate_le hb (e := e) (T := T) (by omega) hev
      exact (C109_step hr.1 _).trans (mul_le_mul_of_nonneg_left hr.2 (by norm_num))
    have hS : ∑ k ∈ Finset.range (m + 1), base * Spec.anneal T (e + k) =
        (∑ k ∈ Finset.range m, base * Spec.anneal T (e + 1 + k)) + base * Spec.anneal T e := by
      rw [Finset.sum_range_succ']
      simp only [add_zero]
      congr 1
      refine Finset.sum_congr rfl fun k _ => ?_
      rw [show e + (k + 1) = e + 1 + k by ring]
    have hpos : 0 ≤ ∑ k ∈ Finset.range m, base * Spec.anneal T (e + 1 + k) :=
      Finset.sum_nonneg fun k _ => mul_nonneg hb (by
        unfold Spec.anneal
        linarith [Real.neg_one_le_cos (Real.pi * ((e + 1 + k : ℕ) : ℝ) / T)])
    rw [hS, mul_add]
    cases b with
    | true =>
      simp only [Prod.mk.injEq, true_and] at h
      rw [← h]
      linarith
    | false =>
      simp only at h
      have hev' : Spec.Reducing u.lrEvents := by
        rcases t1.2 with t | ⟨f, hf', -, t⟩
        · rw [t]; exact hev
        · rw [t]
          intro q hq'
          rcases List.mem_append.1 hq' with h' | h'
          · exact hev q h'
          · have := List.mem_singleton.1 h'
            subst this
            rcases hf' with rfl | rfl | rfl <;> norm_num
      have hN' : (u.ops.paramVec cfg.prob.learnNu).length = N := by
        rw [hu]; simp [adamStep]
      have := ih (e + 1) _ hN' hev' (by omega) h hfin
      have tri := abs_sub_le ((r.ops.paramVec cfg.prob.learnNu).getD i 0) ((u.ops.paramVec cfg.prob.learnNu).getD i 0) (θ.getD i 0)
      linarith

/-- All gradients computed in a fit (calibration.py L481) were finite. -/
def Spec.FiniteGradients (cfg : TrainCfg) (D : GradRule) (O : GradOpt) (s : OPS) : Prop :=
  ∀ p ∈ traceG cfg D O 1 cfg.prob.nepochs [] (calibrateStart cfg s).2, ∀ g ∈ p.2, g.IsFin

/-- **C109** A fit with Adam that returns has moved no parameter by more than `3.65 * learning_rate * (nepochs + 1)`. -/
theorem C109_reach (cfg : TrainCfg) (D : GradRule) {O : GradOpt} {s : OPS} {p : Calibrated} {st : TrainState} {base : ℝ}
    (hb : 0 ≤ base) (hO : O.IsAdam base cfg.prob.nepochs (s.paramVec cfg.prob.learnNu).length)
    (hL : O.Legal (s.paramVec cfg.prob.learnNu).length) (h : calibrateG cfg D O s = (.ok p, st))
    (hfin : Spec.FiniteGradients cfg D O s) {i : ℕ} (hi : i < (s.paramVec cfg.prob.learnNu).length) :
    |(st.ops.paramVec cfg.prob.learnNu).getD i 0 - (s.paramVec cfg.prob.learnNu).getD i 0| ≤
      3.65 * base * (cfg.prob.nepochs + 1) := by
  unfold Spec.FiniteGradients at hfin
  unfold calibrateG at h
  rcases hs : calibrateStart cfg s with ⟨e | u, st0⟩
  · rw [hs] at h; simp at h
  rw [hs] at h hfin
  simp only at h hfin
  have s1 := start_same hs
  rcases hr : runEpochsG cfg D O 1 cfg.prob.nepochs [] st0 with ⟨e | v, w⟩
  · rw [hr] at h; simp at h
  rw [hr] at h
  simp only [Prod.mk.injEq, Except.ok.injEq] at h
  obtain ⟨-, rfl⟩ := h
  have key := adam_epochs hb hO hL cfg.prob.nepochs 0 [] (by rw [s1.2.1]) (by rw [s1.2.2.2]; intro q hq; simp at hq)
    (by omega) (st := st0) (r := w) hr hfin hi
  rw [s1.2.1] at key
  refine key.trans ?_
  rcases Nat.eq_zero_or_pos cfg.prob.nepochs with h0 | h0
  · rw [h0]; simp; positivity
  · rw [← Finset.mul_sum]
    simp only [zero_add]
    rw [anneal_sum h0]
    apply le_of_eq
    ring

/-- **C109** In terms of the physical scales: the returned length scale, time scale and amplitude differ from those before the fit by
at most the factor `exp (3.65 * learning_rate * (nepochs + 1))`. -/
theorem C109_scales (cfg : TrainCfg) (D : GradRule) {O : GradOpt} {s : OPS} {p : Calibrated} {st : TrainState} {base : ℝ}
    (hb : 0 ≤ base) (hO : O.IsAdam base cfg.prob.nepochs (s.paramVec cfg.prob.learnNu).length)
    (hL : O.Legal (s.paramVec cfg.prob.learnNu).length) (h : calibrateG cfg D O s = (.ok p, st))
    (hfin : Spec.FiniteGradients cfg D O s) :
    ∀ q ∈ [(p.L, s.logL), (p.Gamma, s.logT), (p.sigma, s.logM)],
      0 < q.1 ∧ q.1 / Real.exp q.2 ≤ Real.exp (3.65 * base * (cfg.prob.nepochs + 1)) ∧
        Real.exp q.2 / q.1 ≤ Real.exp (3.65 * base * (cfg.prob.nepochs + 1)) := by
  have hp : p = calibratedParams cfg.prob.learnable (st.ops.paramVec cfg.prob.learnNu) := by
    unfold calibrateG at h
    rcases hs : calibrateStart cfg s with ⟨e | u, st0⟩
    · rw [hs] at h; simp at h
    rw [hs] at h
    simp only at h
    rcases hr : runEpochsG cfg D O 1 cfg.prob.nepochs [] st0 with ⟨e | v, w⟩
    · rw [hr] at h; simp at h
    rw [hr] at h
    simp only [Prod.mk.injEq, Except.ok.injEq] at h
    rw [← h.1, ← h.2]
  have hlen : 3 ≤ (s.paramVec cfg.prob.learnNu).length := by
    unfold OPS.paramVec
    simp only [List.length_append, List.length_cons, List.length_nil]
    omega
  have key : ∀ x y : ℝ, |x - y| ≤ 3.65 * base * (cfg.prob.nepochs + 1) →
      0 < Real.exp x ∧ Real.exp x / Real.exp y ≤ Real.exp (3.65 * base * (cfg.prob.nepochs + 1)) ∧
        Real.exp y / Real.exp x ≤ Real.exp (3.65 * base * (cfg.prob.nepochs + 1)) := by
    intro x y hxy
    obtain ⟨h1, h2⟩ := abs_le.1 hxy
    rw [← Real.exp_sub, ← Real.exp_sub]
    exact ⟨Real.exp_pos x, Real.exp_le_exp.2 h2, Real.exp_le_exp.2 (by linarith)⟩
  have r0 := C109_reach cfg D hb hO hL h hfin (i := 0) (by omega)
  have r1 := C109_reach cfg D hb hO hL h hfin (i := 1) (by omega)
  have r2 := C109_reach cfg D hb hO hL h hfin (i := 2) (by omega)
  have e0 : (s.paramVec cfg.prob.learnNu).getD 0 0 = s.logL := rfl
  have e1 : (s.paramVec cfg.prob.learnNu).getD 1 0 = s.logT := rfl
  have e2 : (s.paramVec cfg.prob.learnNu).getD 2 0 = s.logM := rfl
  rw [e0] at r0
  rw [e1] at r1
  rw [e2] at r2
  intro q hq
  simp only [List.mem_cons, List.not_mem_nil, or_false] at hq
  rcases hq with rfl | rfl | rfl
  · rw [hp]; exact key _ _ r0
  · rw [hp]; exact key _ _ r1
  · rw [hp]; exact key _ _ r2

theorem getD_map_range {f : ℕ → ℝ} {n i : ℕ} (h : i < n) : ((List.range n).map f).getD i 0 = f i := by
  simp [h]

/-- **C109** A fit with Adam whose very first evaluation is below the tolerance still takes a step before it returns, and the loss it reports is
that of the parameters it has left. -/
theorem C109_one_step (cfg : TrainCfg) (D : GradRule) {O : GradOpt} {s : OPS} {st : TrainState} {base : ℝ}
    (hO : O.IsAdam base cfg.prob.nepochs (s.paramVec cfg.prob.learnNu).length)
    (hL : O.Legal (s.paramVec cfg.prob.learnNu).length) (hs : calibrateStart cfg s = (.ok (), st))
    (hl : cfg.prob.learnable = true) (hn : 0 < cfg.prob.nepochs) {l : ℝ}
    (hcl : (closure cfg (s.paramVec cfg.prob.learnNu) st).1 = .ok (fin l)) (ht : l < cfg.prob.tol)
    {g : ℕ → ℝ} (hg : backward cfg D st.ops (s.paramVec cfg.prob.learnNu) =
      (List.range (s.paramVec cfg.prob.learnNu).length).map fun i => fin (g i)) :
    ∃ p r, calibrateG cfg D O s = (.ok p, r) ∧ r.epochLoss = [fin l] ∧
      p = calibratedParams true (r.ops.paramVec cfg.prob.learnNu) ∧
      ∀ i < (s.paramVec cfg.prob.learnNu).length, (r.ops.paramVec cfg.prob.learnNu).getD i 0 =
        (s.paramVec cfg.prob.learnNu).getD i 0 - base * (g i + 1e-5 * (s.paramVec cfg.prob.learnNu).getD i 0) /
          (|g i + 1e-5 * (s.paramVec cfg.prob.learnNu).getD i 0| + 1e-8) := by
  obtain ⟨m, hm⟩ : ∃ m, cfg.prob.nepochs = m + 1 := ⟨cfg.prob.nepochs - 1, by omega⟩
  have s1 := start_same hs
  set θ := s.paramVec cfg.prob.learnNu with hθ
  have hθ' : st.ops.paramVec cfg.prob.learnNu = θ := s1.2.1 _
  have hq : O.optStep cfg D 1 [] st = ⟨[θ], O.step 1 st.lrEvents [(θ, backward cfg D st.ops θ)]⟩ := by
    unfold GradOpt.optStep
    rw [hθ']
    rfl
  rcases hc : closure cfg θ st with ⟨err | l', st1⟩
  · rw [hc] at hcl; simp at hcl
  rw [hc] at hcl
  have hll : l' = fin l := Except.ok.inj hcl
  subst hll
  have hloss : st1.loss = fin l ∧ st1.epochLoss = st.epochLoss := by
    unfold closure at hc
    simp only at hc
    split at hc
    · simp at hc
    · split at hc
      · simp at hc
      · split at hc
        · simp at hc
        · simp only [Prod.mk.injEq, Except.ok.injEq] at hc
          rw [← hc.2, ← hc.1]
          exact ⟨rfl, rfl⟩
  have hlt : Fl.lt (fin l) (fin cfg.prob.tol) := by simpa using ht
  have hep : runEpoch cfg 1 (O.optStep cfg D 1 [] st) st = (.ok true,
      { st1 with
          ops := st1.ops.setVec cfg.prob.learnNu (O.step 1 st.lrEvents [(θ, backward cfg D st.ops θ)]),
          epochLoss := [fin l] }) := by
    rw [hq]
    unfold runEpoch
    simp only [closures, hc]
    rw [if_neg (by simp [hl]), if_neg (by rw [hloss.1]; simp), if_pos (by rw [hloss.1]; exact hlt), hloss.1, hloss.2, s1.2.2.1]
    rfl
  have hrun : calibrateG cfg D O s = (.ok (calibratedParams cfg.prob.learnable
      ((st1.ops.setVec cfg.prob.learnNu (O.step 1 st.lrEvents [(θ, backward cfg D st.ops θ)])).paramVec cfg.prob.learnNu)),
      { st1 with
          ops := st1.ops.setVec cfg.prob.learnNu (O.step 1 st.lrEvents [(θ, backward cfg D st.ops θ)]),
          epochLoss := [fin l] }) := by
    unfold calibrateG
    rw [hs]
    simp only
    rw [hm, runEpochsG, hep]
  refine ⟨_, _, hrun, rfl, by rw [hl], ?_⟩
  intro i hi
  have hstep : O.step 1 st.lrEvents [(θ, backward cfg D st.ops θ)] =
      adamStep base cfg.prob.nepochs θ.length 1 st.lrEvents [(θ, backward cfg D st.ops θ)] := by
    refine hO _ _ _ ?_
    intro q hq x hx
    rw [List.mem_singleton.1 hq, hg] at hx
    obtain ⟨j, -, rfl⟩ := List.mem_map.1 hx
    simp
  have harch := arch_closure (cfg := cfg) rfl (θ := θ) (st := st) (by rw [hθ'])
  rw [hc] at harch
  simp only
  rw [paramVec_setVec _ _ _ (by rw [hL, harch.length, hθ']), hstep, hg]
  unfold adamStep
  have e1 : adamGrads [(θ, (List.range θ.length).map fun i => fin (g i))] i = [g i + 1e-5 * θ.getD i 0] := by
    simp [adamGrads, hi]
  rw [getD_map_range hi]
  rw [e1, C109_first_step]
  rfl

theorem recValue_nonneg {cfg : TrainCfg} (hz : 0 ≤ cfg.phys.zref) {s : OPS} {d a : List ℝ} (h : (recValue cfg s d a).IsFin) :
    0 ≤ (recValue cfg s d a).toReal := by
  unfold recValue at h ⊢
  by_cases hl : a.length ≠ (s.paramVec cfg.prob.learnNu).length
  · rw [if_pos hl] at h
    exact absurd h (by simp)
  rw [if_neg hl] at h ⊢
  unfold recLoss at h ⊢
  rcases hco : (closureCoherence cfg (OPS.forward cfg.k1s (s.setVec cfg.prob.learnNu d)).2).1 with e | coh
  · rw [hco] at h; exact absurd h not_isFin_nan
  rw [hco] at h
  simp only at h ⊢
  set args : EvalArgs := ⟨(OPS.recForward cfg.k1s (s.setVec cfg.prob.learnNu a) (s.setVec cfg.prob.learnNu d)).take
    cfg.prob.nc.toNat, cfg.target, genTheta cfg (s.setVec cfg.prob.learnNu a), coh⟩ with hargs
  have key := C32_never_nan cfg.loss cfg.k1s hz args LossState.init
  unfold lossEval at key
  rcases hev : evalTerms cfg.loss cfg.k1s cfg.phys.zref args with e | v
  · rw [hev] at h; exact absurd h not_isFin_nan
  rw [hev] at h key
  simp only at h key ⊢
  rcases key with ⟨e, he⟩ | hp | ⟨x, hx, hx'⟩
  · cases he
  · rw [Except.ok.inj hp] at h
    exact absurd h (by simp)
  · rw [Except.ok.inj hx']
    exact hx

/-- **C109** Where the loss is zero, an exact gradient is zero in every entry that exists. -/
theorem C109_stationary (cfg : TrainCfg) (hz : 0 ≤ cfg.phys.zref) (st : TrainState)
    (hcl : (closure cfg (st.ops.paramVec cfg.prob.learnNu) st).1 = .ok (fin 0)) :
    ∀ g ∈ backward cfg Spec.exactGradient st.ops (st.ops.paramVec cfg.prob.learnNu), g = fin 0 ∨ g = nan := by
  intro g hg
  set θ := st.ops.paramVec cfg.prob.learnNu with hθ
  unfold backward Spec.exactGradient at hg
  simp only at hg
  obtain ⟨i, hi, rfl⟩ := List.mem_map.1 hg
  have hi' := List.mem_range.1 hi
  split
  case isFalse => right; rfl
  case isTrue h =>
    left
    obtain ⟨h1, -⟩ := h
    have hset : θ.set i (θ.getD i 0) = θ := by
      have : θ.getD i 0 = θ[i] := by simp [List.getD_eq_getElem?_getD, hi']
      rw [this, List.set_getElem_self]
    have h0 : recValue cfg st.ops θ θ = fin 0 := by
      rw [closure_recLoss] at hcl
      unfold recValue
      rw [if_neg (by simp [hθ]), hcl]
    have hmin : IsLocalMin (fun t => (recValue cfg st.ops θ (θ.set i t)).toReal) (θ.getD i 0) := by
      filter_upwards [h1] with t ht
      rw [hset, h0]
      exact recValue_nonneg hz ht
    rw [hmin.deriv_eq_zero]

/-- **C109** Hence Adam leaves a perfect fit.  If the loss at the initial parameters is zero (as for data that the model itself has generated
there, C103) and the gradient is zero, the fit takes one step, in which the weight decay alone moves every parameter `x` by
`learning_rate * 1e-5 x / (1e-5 |x| + 1e-8)`, reports the loss zero and returns the displaced parameters. -/
theorem C109_own_data (cfg : TrainCfg) (D : GradRule) {O : GradOpt} {s : OPS} {st : TrainState} {base : ℝ} (hb : 0 < base)
    (hO : O.IsAdam base cfg.prob.nepochs (s.paramVec cfg.prob.learnNu).length)
    (hL : O.Legal (s.paramVec cfg.prob.learnNu).length) (hs : calibrateStart cfg s = (.ok (), st))
    (hl : cfg.prob.learnable = true) (hn : 0 < cfg.prob.nepochs)
    (hcl : (closure cfg (s.paramVec cfg.prob.learnNu) st).1 = .ok (fin 0)) (ht : 0 < cfg.prob.tol)
    (hg : backward cfg D st.ops (s.paramVec cfg.prob.learnNu) =
      (List.range (s.paramVec cfg.prob.learnNu).length).map fun _ => fin 0) :
    ∃ p r, calibrateG cfg D O s = (.ok p, r) ∧ r.epochLoss = [fin 0] ∧
      (∀ i < (s.paramVec cfg.prob.learnNu).length, (r.ops.paramVec cfg.prob.learnNu).getD i 0 =
        (s.paramVec cfg.prob.learnNu).getD i 0 - base * (1e-5 * (s.paramVec cfg.prob.learnNu).getD i 0) /
          (1e-5 * |(s.paramVec cfg.prob.learnNu).getD i 0| + 1e-8)) ∧
      ∀ q ∈ [(p.L, s.logL), (p.Gamma, s.logT), (p.sigma, s.logM)], q.2 ≠ 0 → q.1 ≠ Real.exp q.2 ∧
        (0.1 ≤ |q.2| → Real.exp (0.99 * base) ≤ max (q.1 / Real.exp q.2) (Real.exp q.2 / q.1)) := by
  obtain ⟨p, r, h1, h2, h3, h4⟩ := C109_one_step cfg D hO hL hs hl hn hcl ht (g := fun _ => 0) hg
  have h5 : ∀ i < (s.paramVec cfg.prob.learnNu).length, (r.ops.paramVec cfg.prob.learnNu).getD i 0 =
        (s.paramVec cfg.prob.learnNu).getD i 0 - base * (1e-5 * (s.paramVec cfg.prob.learnNu).getD i 0) /
          (1e-5 * |(s.paramVec cfg.prob.learnNu).getD i 0| + 1e-8) := by
    intro i hi
    rw [h4 i hi, zero_add, abs_mul, abs_of_pos (by norm_num : (0:ℝ) < 1e-5)]
  refine ⟨p, r, h1, h2, h5, ?_⟩
  have hlen : 3 ≤ (s.paramVec cfg.prob.learnNu).length := by
    unfold OPS.paramVec
    simp only [List.length_append, List.length_cons, List.length_nil]
    omega
  have key : ∀ x : ℝ, x ≠ 0 → Real.exp (x - base * (1e-5 * x) / (1e-5 * |x| + 1e-8)) ≠ Real.exp x ∧
      (0.1 ≤ |x| → Real.exp (0.99 * base) ≤ max (Real.exp (x - base * (1e-5 * x) / (1e-5 * |x| + 1e-8)) / Real.exp x)
        (Real.exp x / Real.exp (x - base * (1e-5 * x) / (1e-5 * |x| + 1e-8)))) := by
    intro x hx
    have hd : 0 < 1e-5 * |x| + 1e-8 := by positivity
    constructor
    · intro he
      have := Real.exp_injective he
      have h0 : base * (1e-5 * x) / (1e-5 * |x| + 1e-8) = 0 := by linarith
      rw [div_eq_zero_iff] at h0
      rcases h0 with h0 | h0
      · rcases mul_eq_zero.1 h0 with h0 | h0
        · exact hb.ne' h0
        · exact hx (by linarith)
      · exact hd.ne' h0
    · intro hx1
      rw [← Real.exp_sub, ← Real.exp_sub, sub_sub_cancel, sub_sub_cancel_left]
      have hq : 0.99 * base ≤ base * (1e-5 * |x|) / (1e-5 * |x| + 1e-8) := by
        rw [le_div_iff₀ hd]
        nlinarith
      rcases le_or_gt 0 x with h | h
      · rw [abs_of_nonneg h] at hq ⊢
        exact le_max_of_le_right (Real.exp_le_exp.2 hq)
      · rw [abs_of_neg h] at hq ⊢
        refine le_max_of_le_left (Real.exp_le_exp.2 (hq.trans (le_of_eq ?_)))
        ring
  have g0 := h5 0 (by omega)
  have g1 := h5 1 (by omega)
  have g2 := h5 2 (by omega)
  have e0 : (s.paramVec cfg.prob.learnNu).getD 0 0 = s.logL := rfl
  have e1 : (s.paramVec cfg.prob.learnNu).getD 1 0 = s.logT := rfl
  have e2 : (s.paramVec cfg.prob.learnNu).getD 2 0 = s.logM := rfl
  rw [e0] at g0
  rw [e1] at g1
  rw [e2] at g2
  intro q hq hq0
  simp only [List.mem_cons, List.not_mem_nil, or_false] at hq
  rcases hq with rfl | rfl | rfl
  · rw [h3]; simp only [calibratedParams]; rw [g0]; exact key _ hq0
  · rw [h3]; simp only [calibratedParams]; rw [g1]; exact key _ hq0
  · rw [h3]; simp only [calibratedParams]; rw [g2]; exact key _ hq0

end
end Verif
