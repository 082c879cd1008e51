import Verif.Props.RoundingBlock
import Verif.Props.Loss

/-!
# C139: the training loss in rounded arithmetic

The misfit compares logarithms, so relative errors of the predicted spectra become absolute errors of the root of the misfit.
-/

namespace Verif
open Fl Fmt Spec

noncomputable section

variable {A : Fmt}

theorem LogNear.abs {a x y : ℝ} (h : LogNear a x y) : LogNear a |x| |y| := by
  obtain ⟨s, h1, rfl⟩ := h
  exact ⟨s, h1, by rw [abs_mul, abs_of_pos (Real.exp_pos s)]⟩

/-- Sums of squares of two lists whose entries differ by at most `δ`. -/
theorem sum_abs_sq_le {ι : Type*} (l : List ι) (f : ι → ℝ) : (l.map fun i => |f i|).sum ^ 2 ≤ l.length * (l.map fun i => f i ^ 2).sum := by
  induction l with
  | nil => simp
  | cons i l ih =>
    simp only [List.map_cons, List.sum_cons, List.length_cons]
    push_cast
    obtain ⟨S, hS⟩ : ∃ S, S = (l.map fun i => |f i|).sum := ⟨_, rfl⟩
    obtain ⟨Q, hQ⟩ : ∃ Q, Q = (l.map fun i => f i ^ 2).sum := ⟨_, rfl⟩
    obtain ⟨n, hn⟩ : ∃ n : ℝ, n = l.length := ⟨_, rfl⟩
    have n0 : 0 ≤ n := by rw [hn]; positivity
    rw [← hS, ← hQ, ← hn] at ih ⊢
    have Q0 : 0 ≤ Q := by rw [hQ]; exact List.sum_nonneg (by simp; intro a _; positivity)
    have e : f i ^ 2 = |f i| ^ 2 := (sq_abs _).symm
    rw [e]
    obtain ⟨y, hy⟩ : ∃ y, y = |f i| := ⟨_, rfl⟩
    rw [← hy]
    rcases n0.eq_or_lt with h0 | h0
    · rw [← h0] at ih ⊢
      have : S = 0 := by nlinarith
      rw [this]; nlinarith
    · have h1 : 0 ≤ (S - n * y) ^ 2 := sq_nonneg _
      have h2 : n * (2 * S * y) ≤ n * (Q + n * y ^ 2) := by nlinarith
      have h3 := le_of_mul_le_mul_left h2 h0
      nlinarith

theorem rms_near_le {ι : Type*} (l : List ι) (f g : ι → ℝ) {δ : ℝ} (h0 : 0 ≤ δ) (h : ∀ i ∈ l, |g i| ≤ |f i| + δ) :
    Real.sqrt ((l.map fun i => g i ^ 2).sum / l.length) ≤ Real.sqrt ((l.map fun i => f i ^ 2).sum / l.length) + δ := by
  rcases l.eq_nil_or_concat with rfl | ⟨l', a, hl⟩
  · simpa using h0
  have n0 : (0:ℝ) < l.length := by rw [hl]; simp; positivity
  obtain ⟨n, hn⟩ : ∃ n : ℝ, n = l.length := ⟨_, rfl⟩
  rw [← hn] at n0 ⊢
  obtain ⟨Q, hQ⟩ : ∃ Q, Q = (l.map fun i => f i ^ 2).sum := ⟨_, rfl⟩
  have Q0 : 0 ≤ Q := by rw [hQ]; exact List.sum_nonneg (by simp; intro a _; positivity)
  have hc := sum_abs_sq_le l f
  obtain ⟨S, hS⟩ : ∃ S, S = (l.map fun i => |f i|).sum := ⟨_, rfl⟩
  have S0 : 0 ≤ S := by rw [hS]; exact List.sum_nonneg (by simp)
  rw [← hS, ← hQ, ← hn] at hc
  have h1 : (l.map fun i => g i ^ 2).sum ≤ Q + 2 * δ * S + n * δ ^ 2 := by
    rw [hQ, hS, hn]
    clear hl hn hQ hS hc
    induction l with
    | nil => simp
    | cons i l ih =>
      have := ih fun j hj => h j (by simp [hj])
      simp only [List.map_cons, List.sum_cons, List.length_cons]
      push_cast
      have h2 : g i ^ 2 ≤ (|f i| + δ) ^ 2 := by
        rw [← sq_abs (g i)]
        exact pow_le_pow_left₀ (abs_nonneg _) (h i (by simp)) 2
      have h3 : (|f i| + δ) ^ 2 = f i ^ 2 + 2 * δ * |f i| + δ ^ 2 := by
        rw [add_sq, sq_abs]; ring
      linarith
  rw [← hQ]
  refine Real.sqrt_le_iff.2 ⟨by positivity, ?_⟩
  have h4 : S / n ≤ Real.sqrt (Q / n) := by
    refine Real.le_sqrt_of_sq_le ?_
    rw [div_pow, div_le_div_iff₀ (by positivity) n0]
    nlinarith
  rw [add_sq, Real.sq_sqrt (by positivity), div_le_iff₀ n0]
  have h5 : 2 * δ * S ≤ 2 * δ * Real.sqrt (Q / n) * n := by
    have := mul_le_mul_of_nonneg_left h4 (by positivity : 0 ≤ 2 * δ * n)
    have e : 2 * δ * n * (S / n) = 2 * δ * S := by field_simp
    linarith
  have e1 : Q / n * n = Q := by field_simp
  nlinarith

/-- Root mean squares of nearby lists are near. -/
theorem rms_near {ι : Type*} (l : List ι) (f g : ι → ℝ) {δ : ℝ} (h0 : 0 ≤ δ) (h : ∀ i ∈ l, |g i - f i| ≤ δ) :
    abs (Real.sqrt ((l.map fun i => g i ^ 2).sum / l.length) - Real.sqrt ((l.map fun i => f i ^ 2).sum / l.length)) ≤ δ := by
  have h1 := rms_near_le l f g h0 fun i hi => by
    have := abs_sub_abs_le_abs_sub (g i) (f i)
    linarith [h i hi]
  have h2 := rms_near_le l g f h0 fun i hi => by
    have := abs_sub_abs_le_abs_sub (f i) (g i)
    rw [abs_sub_comm] at this
    linarith [h i hi]
  rw [abs_le]
  constructor <;> linarith

/-- Squares of nearly equal numbers, added in any order and divided by their number. -/
theorem mean_sq_near {ι : Type*} {a : ℝ} (l : List ι) (x : ι → ℝ) (c : ι → ℝ) (h : ∀ i ∈ l, LogNear a (x i) (c i)) (ha : 0 ≤ a)
    {s : ℝ} {d : ℕ} (hs : Summation A (l.map fun i => A.sq (c i)) s d) :
    LogNear (2 * a + (d + 2) * A.e) ((l.map fun i => x i ^ 2).sum / l.length) (A.div s l.length) := by
  have e0 := A.e_nonneg
  have h1 : LogNear (2 * a + A.e) ((l.map fun i => x i ^ 2).sum) ((l.map fun i => A.sq (c i)).sum) ∧
      ∀ y ∈ l.map fun i => A.sq (c i), 0 ≤ y := by
    clear hs
    induction l with
    | nil => exact ⟨by simpa using (LogNear.refl 0).mono (by positivity), by simp⟩
    | cons i l ih =>
      obtain ⟨i1, i2⟩ := ih fun j hj => h j (by simp [hj])
      have hi : LogNear (2 * a + A.e) (x i ^ 2) (A.sq (c i)) := by
        rw [pow_two]; exact A.sq_near (h i (by simp))
      simp only [List.map_cons, List.sum_cons]
      refine ⟨hi.add i1 (sq_nonneg _) (List.sum_nonneg (by simp; intro a _; positivity)), ?_⟩
      intro y hy
      rcases List.mem_cons.1 hy with rfl | hy
      · exact hi.nonneg_right (sq_nonneg _)
      · exact i2 y hy
  have h2 := A.div_near (h1.1.trans (hs.near h1.2)) (LogNear.refl (l.length : ℝ))
  exact h2.mono (le_of_eq (by ring))

/-- Entries of three arrays side by side. -/
theorem triples {R : ℝ → ℝ → Prop} {m m' : List (List ℝ)} (h : List.Forall₂ (List.Forall₂ R) m m') (t : List (List ℝ)) :
    ∃ z : List (ℝ × ℝ × ℝ), pairs m t = z.map (fun q => (q.1, q.2.2)) ∧ pairs m' t = z.map (fun q => (q.2.1, q.2.2)) ∧
      ∀ q ∈ z, R q.1 q.2.1 := by
  have row : ∀ {r r' : List ℝ}, List.Forall₂ R r r' → ∀ s : List ℝ, ∃ z : List (ℝ × ℝ × ℝ), r.zip s = z.map (fun q => (q.1, q.2.2)) ∧
      r'.zip s = z.map (fun q => (q.2.1, q.2.2)) ∧ ∀ q ∈ z, R q.1 q.2.1 := by
    intro r r' hr
    induction hr with
    | nil => intro s; exact ⟨[], by simp⟩
    | @cons x x' r r' hx _ ih =>
      intro s
      cases s with
      | nil => exact ⟨[], by simp⟩
      | cons y s =>
        obtain ⟨z, z1, z2, z3⟩ := ih s
        exact ⟨(x, x', y) :: z, by simp [z1], by simp [z2], by simpa using ⟨hx, fun a b c hz => z3 (a, b, c) hz⟩⟩
  induction h generalizing t with
  | nil => exact ⟨[], by simp [pairs]⟩
  | @cons r r' m m' hr _ ih =>
    cases t with
    | nil => exact ⟨[], by simp [pairs]⟩
    | cons s t =>
      obtain ⟨z, z1, z2, z3⟩ := ih t
      obtain ⟨y, y1, y2, y3⟩ := row hr s
      refine ⟨y ++ z, ?_, ?_, ?_⟩
      · rw [List.map_append, ← z1, ← y1]; simp [pairs]
      · rw [List.map_append, ← z2, ← y2]; simp [pairs]
      · intro q hq
        rcases List.mem_append.1 hq with hq | hq
        · exact y3 q hq
        · exact z3 q hq

theorem zipWith_pairs (f : ℝ → ℝ → ℝ) (a b : List (List ℝ)) :
    (List.zipWith (fun r s => List.zipWith f r s) a b).flatten = (pairs a b).map fun q => f q.1 q.2 := by
  unfold pairs
  rw [List.map_flatten, List.map_zipWith]
  congr 1
  congr 1
  funext r s
  rw [List.zip, List.map_zipWith]

/-- From the error of a mean of squares to the error of its root. -/
theorem root_error {g M M' l δ : ℝ} (h : LogNear (2 * g) M' l) (hM : abs (Real.sqrt M' - Real.sqrt M) ≤ δ) :
    abs (Real.sqrt l - Real.sqrt M) ≤ (Real.exp g - 1) * Real.sqrt M + Real.exp g * δ := by
  have h1 := h.sqrt.sub_le
  rw [mul_div_cancel_left₀ g two_ne_zero, abs_of_nonneg (Real.sqrt_nonneg _)] at h1
  have g0 : 0 ≤ g := by linarith [h.nonneg]
  have ex : 0 ≤ Real.exp g - 1 := by linarith [Real.add_one_le_exp g]
  have h2 : Real.sqrt M' ≤ Real.sqrt M + δ := by linarith [(abs_le.1 hM).2]
  have h3 := mul_le_mul_of_nonneg_right h2 ex
  have e : Real.sqrt l - Real.sqrt M = (Real.sqrt l - Real.sqrt M') + (Real.sqrt M' - Real.sqrt M) := by ring
  rw [e]
  refine (abs_add_le _ _).trans ?_
  linarith

/-- **C139** The misfit in rounded arithmetic.  If every predicted value `m'` has the sign of the exact one and differs from it by a
factor of at most `exp (± a)`, the root of the computed misfit differs from the root of the exact one by a relative error of
`(d + 4) / 2` units and an absolute error of about `a + e`, whatever the order in which torch adds; the computed misfit is never
negative. -/
theorem C139_mse (A : Fmt) {m m' t : List (List ℝ)} (hs : m.map List.length = t.map List.length) (hm : NoZero m) (ht : NoZero t)
    (hne : pairs m t ≠ []) {a : ℝ} (h : List.Forall₂ (List.Forall₂ (LogNear a)) m m') {l : ℝ} {d : ℕ} (hl : A.MseOf m' t l d) :
    ∃ ℓ : ℝ, mseTerm (tens m) (tens t) = .ok (fin ℓ) ∧ 0 ≤ l ∧
      abs (Real.sqrt l - Real.sqrt ℓ) ≤
        (Real.exp ((d + 4) / 2 * A.e) - 1) * Real.sqrt ℓ + Real.exp ((d + 4) / 2 * A.e) * (a + A.e) := by
  have e0 := A.e_nonneg
  obtain ⟨z, z1, z2, z3⟩ := triples h t
  refine ⟨_, C30_value hs hm ht hne, ?_⟩
  have hz : ∀ q ∈ z, q.1 ≠ 0 ∧ q.2.2 ≠ 0 := by
    intro q hq
    have : (q.1, q.2.2) ∈ pairs m t := by rw [z1]; exact List.mem_map.2 ⟨q, hq, rfl⟩
    obtain ⟨⟨r, hr, h1⟩, r', hr', h2⟩ := mem_pairs this
    exact ⟨hm r hr _ h1, ht r' hr' _ h2⟩
  have zne : z ≠ [] := by rintro rfl; simp [z1] at hne
  obtain ⟨s, hs', rfl⟩ := hl
  rw [zipWith_pairs (fun x y => A.sq (A.logF |A.div x y|)), z2, List.map_map] at hs'
  rw [zipWith_pairs (fun x y => A.sq (A.logF |A.div x y|)), z2, List.map_map, List.length_map]
  have near := mean_sq_near z (fun q => Real.log |A.div q.2.1 q.2.2|) (fun q => A.logF |A.div q.2.1 q.2.2|)
    (fun q _ => A.log_near _) e0 hs'
  have near' := near.mono (le_of_eq (by ring : 2 * A.e + (d + 2) * A.e = 2 * ((d + 4) / 2 * A.e)))
  have a0 : 0 ≤ a := by
    obtain ⟨q, hq⟩ := List.exists_mem_of_ne_nil z zne
    exact (z3 q hq).nonneg
  refine ⟨near.nonneg_right (div_nonneg (sum_nonneg_map _ _ fun _ _ => sq_nonneg _) (by positivity)), ?_⟩
  have hM := rms_near z (fun q => Real.log |q.1| - Real.log |q.2.2|) (fun q => Real.log |A.div q.2.1 q.2.2|)
    (δ := a + A.e) (by positivity) (by
      intro q hq
      obtain ⟨n1, n2⟩ := hz q hq
      have h1 := (A.div_near (z3 q hq) (LogNear.refl q.2.2)).abs.abs_log (abs_pos.2 (div_ne_zero n1 n2))
      rw [abs_div, Real.log_div (abs_ne_zero.2 n1) (abs_ne_zero.2 n2)] at h1
      simpa using h1)
  rw [z1, List.map_map, List.length_map]
  exact root_error near' hM

/-- **C139** The coherence terms `mean((model - data) ** 2)`: if every modelled coherence is off by at most `δ`, the root of the
computed value differs from that of the exact one by a relative error of `(d + 4) / 2` units and an absolute error of about `δ`. -/
theorem C139_coherence (A : Fmt) {c c' t : List (List ℝ)} {δ : ℝ} (h0 : 0 ≤ δ) (hne : pairs c t ≠ [])
    (h : List.Forall₂ (List.Forall₂ fun x y => |y - x| ≤ δ) c c') {l : ℝ} {d : ℕ} (hl : A.MsdOf c' t l d) :
    ∃ ℓ : ℝ, msd (tens c) (tens t) = fin ℓ ∧ 0 ≤ l ∧
      abs (Real.sqrt l - Real.sqrt ℓ) ≤ (Real.exp ((d + 4) / 2 * A.e) - 1) * Real.sqrt ℓ + Real.exp ((d + 4) / 2 * A.e) * δ := by
  have e0 := A.e_nonneg
  obtain ⟨z, z1, z2, z3⟩ := triples h t
  have zne : z ≠ [] := by rintro rfl; simp [z1] at hne
  refine ⟨(z.map fun q => (q.1 - q.2.2) ^ 2).sum / z.length, ?_, ?_⟩
  · unfold msd
    rw [zipFlat_tens, z1, List.map_map]
    have := mean_map_fin z (fun q => (q.1 - q.2.2) ^ 2) zne
    rw [← this]
    congr 1
    refine List.map_congr_left fun q _ => ?_
    simp [pow_two, Fl.sub_def]
    ring
  obtain ⟨s, hs', rfl⟩ := hl
  rw [zipWith_pairs (fun x y => A.sq (A.sub x y)), z2, List.map_map] at hs'
  rw [zipWith_pairs (fun x y => A.sq (A.sub x y)), z2, List.map_map, List.length_map]
  have near := mean_sq_near z (fun q => q.2.1 - q.2.2) (fun q => A.sub q.2.1 q.2.2) (fun q _ => A.rnd_near _) e0 hs'
  have near' := near.mono (le_of_eq (by ring : 2 * A.e + (d + 2) * A.e = 2 * ((d + 4) / 2 * A.e)))
  refine ⟨near.nonneg_right (div_nonneg (sum_nonneg_map _ _ fun _ _ => sq_nonneg _) (by positivity)), ?_⟩
  exact root_error near' (rms_near z (fun q => q.1 - q.2.2) (fun q => q.2.1 - q.2.2) h0 fun q hq => by
    have := z3 q hq
    rwa [sub_sub_sub_cancel_right])

/-- **C139** The regularization term: a relative error of `d + 3` units. -/
theorem C139_regularization (A : Fmt) (p : LossParams) (hp : 0 ≤ p.betaReg) {θ : List ℝ} (hθ : θ ≠ []) {l : ℝ} {d : ℕ}
    (hl : A.RegOf p.betaReg θ l d) :
    ∃ ℓ : ℝ, regularization p (.vec (θ.map fin)) = .ok (fin ℓ) ∧ 0 ≤ ℓ ∧ |l - ℓ| ≤ (Real.exp ((d + 3) * A.e) - 1) * ℓ := by
  obtain ⟨s, hs, rfl⟩ := hl
  have near := mean_sq_near θ (fun x => x) (fun x => x) (fun x _ => LogNear.refl x) le_rfl hs
  have n0 : (0 : ℝ) ≤ (θ.map fun x : ℝ => x ^ 2).sum / (θ.length : ℝ) :=
    div_nonneg (sum_nonneg_map _ _ fun _ _ => sq_nonneg _) (by positivity)
  refine ⟨p.betaReg * ((θ.map fun x => x ^ 2).sum / θ.length), ?_, by positivity, ?_⟩
  · have := mean_map_fin θ (fun x => x ^ 2) hθ
    change raiseIfNan (fin p.betaReg * flMean ((θ.map fin).map fun x => x * x)) = _
    rw [List.map_map, show ((fun x : Fl => x * x) ∘ fin) = fun x : ℝ => fin (x ^ 2) by funext x; simp [pow_two], this, fin_mul_fin,
      raiseIfNan_fin]
  · refine rel_of_near ?_ (by positivity)
    exact (A.mul_near (LogNear.refl p.betaReg) near).mono (le_of_eq (by ring))

/-- A perfect fit in single precision with 200 values (20 frequencies, nested at most 200 deep) whose spectra are correct to 0.3 percent:
the computed misfit is below `1e-5` although the exact one is zero. -/
example (A : Fmt) (hv : A.v ≤ 1 / 2 ^ 22) {l : ℝ} (h0 : 0 ≤ l)
    (h : abs (Real.sqrt l - Real.sqrt 0) ≤ (Real.exp (((200:ℕ) + 4) / 2 * A.e) - 1) * Real.sqrt 0 +
      Real.exp (((200:ℕ) + 4) / 2 * A.e) * (0.003 + A.e)) : l ≤ 1e-5 := by
  have h1 : A.v / (1 - A.v) ≤ 2.4e-7 := by
    rw [div_le_iff₀ (by linarith)]
    linarith
  have h2 : A.e ≤ 2.4e-7 := A.e_le.trans h1
  have e0 := A.e_nonneg
  have h3 : Real.exp (((200:ℕ) + 4) / 2 * A.e) ≤ 1.01 := by
    have hb := Real.exp_bound_div_one_sub_of_interval (x := ((200:ℕ) + 4) / 2 * A.e) (by positivity) (by push_cast; linarith)
    refine hb.trans ?_
    push_cast
    rw [div_le_iff₀ (by linarith)]
    linarith
  rw [Real.sqrt_zero, mul_zero, zero_add, sub_zero, abs_of_nonneg (Real.sqrt_nonneg _)] at h
  have h4 : Real.sqrt l ≤ 0.0031 := h.trans (by nlinarith)
  have h5 := Real.sq_sqrt h0
  nlinarith [Real.sqrt_nonneg l]

/-- Concrete arrays meeting the hypotheses of `C139_mse`, `C139_coherence`. -/
example (A : Fmt) : ∃ l, A.MseOf [[1, 2], [3, -4]] [[1, 1], [1, 1]] l 4 := by
  obtain ⟨s, hs⟩ := Summation.foldl (A := A)
    ((List.zipWith (fun r s => List.zipWith (fun x y => A.sq (A.logF |A.div x y|)) r s) [[1, 2], [3, -4]] [[1, 1], [1, 1]]).flatten)
  exact ⟨_, s, hs, rfl⟩

end
end Verif
