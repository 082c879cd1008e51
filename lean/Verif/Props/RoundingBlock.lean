import Verif.Props.RoundingSpectrum
import Verif.Props.Generator

/-!
# C138: normalisation of a block and the mean wind in rounded arithmetic
-/

namespace Verif
open Fl Fmt Spec

noncomputable section

variable {A : Fmt}

theorem sum_sq_near (A : Fmt) (l : List ℝ) : LogNear A.e ((l.map fun x => x ^ 2).sum) ((l.map A.sq).sum) ∧ ∀ x ∈ l.map A.sq, 0 ≤ x := by
  have e0 := A.e_nonneg
  induction l with
  | nil => exact ⟨by simpa using (LogNear.refl 0).mono e0, by simp⟩
  | cons x t ih =>
    have h : LogNear A.e (x ^ 2) (A.sq x) := by
      rw [pow_two]; exact A.rnd_near _
    simp only [List.map_cons, List.sum_cons]
    refine ⟨h.add ih.1 (sq_nonneg x) (List.sum_nonneg (by simp; intro a _; positivity)), ?_⟩
    intro y hy
    rcases List.mem_cons.1 hy with rfl | hy
    · exact h.nonneg_right (sq_nonneg x)
    · exact ih.2 y hy

/-- The standard deviation of a block. -/
theorem sdOf_near {l : List ℝ} {sd : ℝ} {d : ℕ} (h : A.SdOf l sd d) :
    LogNear ((d + 4) / 2 * A.e) (Real.sqrt ((l.map fun x => x ^ 2).sum / l.length)) sd := by
  obtain ⟨s, hs, rfl⟩ := h
  obtain ⟨h1, h2⟩ := sum_sq_near A l
  have h3 := A.sqrt_near (A.div_near (h1.trans (hs.near h2)) (LogNear.refl (l.length : ℝ)))
  exact h3.mono (le_of_eq (by ring))

/-- **C138** The normalisation of a block in rounded arithmetic, whatever the order in which numpy adds (nested at most `d` deep):
every scaled value has a small relative error, also after adding a zero; and the mean square of the scaled block is one up to
`d + 6` units.  `C138_returned` relates this to the returned block. -/
theorem C138_block (A : Fmt) (g : Gen) (b : Arr ℝ) (p : ProfileArgs) {sd : ℝ} {d : ℕ} (h : A.SdOf b.flat sd d) {b' : Arr Fl}
    (hb : g.normalizeBlock b p = .ok b') :
    let σ := Real.sqrt ((b.flat.map fun x => x ^ 2).sum / b.flat.length)
    (∀ x ∈ b.flat, |A.div x sd - x / σ| ≤ (Real.exp ((d + 6) / 2 * A.e) - 1) * |x / σ| ∧
      |A.add (A.div x sd) 0 - x / σ| ≤ (Real.exp ((d + 8) / 2 * A.e) - 1) * |x / σ|) ∧
    let m := ((b.flat.map fun x => A.div x sd ^ 2).sum / b.flat.length)
    Real.exp (-((d + 6) * A.e)) ≤ m ∧ m ≤ Real.exp ((d + 6) * A.e) := by
  intro σ
  have e0 := A.e_nonneg
  have hs := sdOf_near h
  have hx : ∀ x, LogNear ((d + 6) / 2 * A.e) (x / σ) (A.div x sd) := fun x =>
    (A.div_near (LogNear.refl x) hs).mono (le_of_eq (by ring))
  have rel : ∀ {a x y : ℝ}, LogNear a x y → |y - x| ≤ (Real.exp a - 1) * |x| := fun h => by
    have := h.sub_le
    rwa [mul_comm] at this
  refine ⟨fun x _ => ⟨rel (hx x), rel ?_⟩, ?_⟩
  · have := (hx x).trans (A.rnd_near (A.div x sd))
    unfold Fmt.add
    rw [add_zero]
    exact this.mono (le_of_eq (by ring))
  · intro m
    have hany : b.any := by
      by_contra hn
      unfold Gen.normalizeBlock at hb
      rw [if_pos hn] at hb
      exact absurd hb (by simp)
    obtain ⟨S, hS⟩ : ∃ S, S = (b.flat.map fun x => x ^ 2).sum := ⟨_, rfl⟩
    have hSp : 0 < S ∧ 0 < (b.flat.length : ℝ) := by
      obtain ⟨v, hv, hv0⟩ := hany
      constructor
      · rw [hS]
        have h1 : v ^ 2 ≤ (b.flat.map fun x => x ^ 2).sum :=
          List.single_le_sum (by simp; intro a _; positivity) _ (List.mem_map.2 ⟨v, hv, rfl⟩)
        have : 0 < v ^ 2 := by positivity
        linarith
      · exact_mod_cast List.length_pos_of_mem hv
    have hm : LogNear ((d + 6) * A.e) (S / σ ^ 2 / b.flat.length) m := by
      have key : ∀ l : List ℝ, LogNear ((d + 6) * A.e) ((l.map fun x => x ^ 2).sum / σ ^ 2) ((l.map fun x => A.div x sd ^ 2).sum) := by
        intro l
        induction l with
        | nil => simpa using (LogNear.refl 0).mono (by positivity)
        | cons x t ih =>
          simp only [List.map_cons, List.sum_cons, add_div]
          have h2 : LogNear ((d + 6) * A.e) (x ^ 2 / σ ^ 2) (A.div x sd ^ 2) := by
            rw [← div_pow, pow_two, pow_two]
            exact ((hx x).mul (hx x)).mono (le_of_eq (by ring))
          refine h2.add ih (by positivity) (div_nonneg (List.sum_nonneg (by simp; intro a _; positivity)) (sq_nonneg _))
      have := (key b.flat).div (LogNear.refl (b.flat.length : ℝ))
      rw [add_zero, ← hS] at this
      exact this
    have hσ : σ ^ 2 = S / b.flat.length := by
      simp only [σ]
      rw [Real.sq_sqrt (div_nonneg (by rw [← hS]; exact hSp.1.le) hSp.2.le), ← hS]
    have h1 : S / σ ^ 2 / b.flat.length = 1 := by
      rw [hσ]
      have := hSp.1.ne'
      have := hSp.2.ne'
      field_simp
    rw [h1] at hm
    have := hm.bounds zero_le_one
    simpa using this

theorem val?_ofFn {n1 n2 n3 a b c : ℕ} (f : ℕ → ℕ → ℕ → Fin 3 → Fl) (ha : a < n1) (hb : b < n2) (hc : c < n3) :
    (Arr.ofFn n1 n2 n3 f).val? a b c = some (f a b c) := by
  unfold Arr.val? Arr.ofFn
  simp only
  rw [tab_getElem?, if_pos ha, Option.bind_some, tab_getElem?, if_pos hb, Option.bind_some, tab_getElem?, if_pos hc]

/-- **C138** The block that `_normalize_block` returns: the computed lateral and vertical components have a small relative error;
the computed streamwise component is off by the error of the scaled value and that of the computed mean wind `U'`, and by one
rounding of the sum. -/
theorem C138_returned (A : Fmt) (g : Gen) (n1 n2 : ℕ) (f : ℕ → ℕ → ℕ → Fin 3 → ℝ) (p : ProfileArgs) {sd : ℝ} {d : ℕ}
    (h : A.SdOf (Arr.ofFn n1 n2 g.Nz f).flat sd d) {r : Arr Fl} (hr : g.normalizeBlock (Arr.ofFn n1 n2 g.Nz f) p = .ok r)
    {a b c : ℕ} (ha : a < n1) (hb : b < n2) (hc : c < g.Nz) :
    ∃ w, r.val? a b c = some w ∧
      (∀ i, i ≠ 0 → ∃ y, w i = fin y ∧ |A.add (A.div (f a b c i) sd) 0 - y| ≤ (Real.exp ((d + 8) / 2 * A.e) - 1) * |y|) ∧
      ∀ U U' δ : ℝ, (if p.ptype = "LOG" then Verif.logLaw (c * (g.d3 / 2 ^ g.l3)) p.z0 p.zref p.uref
          else Verif.powerLaw (c * (g.d3 / 2 ^ g.l3)) p.zref p.uref (p.plexp.getD 0)) = fin U → |U' - U| ≤ δ →
        ∃ y, w 0 = fin y ∧ |A.add (A.div (f a b c 0) sd) U' - y| ≤
          Real.exp A.e * ((Real.exp ((d + 6) / 2 * A.e) - 1) * |y - U| + δ) + (Real.exp A.e - 1) * |y| := by
  obtain ⟨hx, -⟩ := C138_block A g _ p h hr
  obtain ⟨σ, hσ⟩ : ∃ σ, σ = Real.sqrt (((Arr.ofFn n1 n2 g.Nz f).flat.map fun x => x ^ 2).sum / (Arr.ofFn n1 n2 g.Nz f).flat.length) :=
    ⟨_, rfl⟩
  rw [← hσ] at hx
  have hm : ∀ i, f a b c i ∈ (Arr.ofFn n1 n2 g.Nz f).flat := fun i => (mem_flat f _).2 ⟨a, ha, b, hb, c, hc, i, rfl⟩
  rw [normalizeBlock_ofFn] at hr
  by_cases hv : (Arr.ofFn n1 n2 g.Nz f).any ∧ p.Valid
  swap
  · rw [if_neg hv] at hr; cases hr
  rw [if_pos hv] at hr
  cases hr
  have hsd : (Arr.ofFn n1 n2 g.Nz f).sd = σ := hσ.symm
  rw [hsd]
  refine ⟨_, val?_ofFn _ ha hb hc, ?_, ?_⟩
  · intro i hi
    refine ⟨f a b c i / σ, ?_, (hx _ (hm i)).2⟩
    simp only [if_neg hi, fin_add_fin, add_zero]
  · intro U U' δ hU hδ
    have hp : g.profileAt p c = fin U := by
      rw [← hU]; unfold Gen.profileAt
      have : ((g.Nz - 1 : ℕ) : ℝ) = 2 ^ g.l3 := by simp [Gen.Nz]
      rw [this]
    refine ⟨f a b c 0 / σ + U, ?_, ?_⟩
    · simp only [if_true, hp, fin_add_fin]
    have h1 := (hx _ (hm 0)).1
    obtain ⟨x, hxx⟩ : ∃ x, x = f a b c 0 / σ := ⟨_, rfl⟩
    obtain ⟨x', hx'⟩ : ∃ x', x' = A.div (f a b c 0) sd := ⟨_, rfl⟩
    obtain ⟨q, hq⟩ : ∃ q, q = Real.exp ((d + 6) / 2 * A.e) - 1 := ⟨_, rfl⟩
    rw [← hxx, ← hx', ← hq] at h1
    rw [← hxx, ← hx', ← hq, add_sub_cancel_right]
    have h2 : |x' + U' - (x + U)| ≤ q * |x| + δ := by
      have e1 : x' + U' - (x + U) = (x' - x) + (U' - U) := by ring
      rw [e1]
      exact (abs_add_le _ _).trans (add_le_add h1 hδ)
    have h3 := (A.rnd_near (x' + U')).sub_le
    have h4 : |x' + U'| ≤ |x + U| + (q * |x| + δ) := by
      have e1 : x' + U' = (x + U) + (x' + U' - (x + U)) := by ring
      rw [e1]
      exact (abs_add_le _ _).trans (by linarith)
    have ex : 0 ≤ Real.exp A.e - 1 := by
      have := Real.add_one_le_exp A.e
      have := A.e_nonneg
      linarith
    have h5 := mul_le_mul_of_nonneg_right h4 ex
    unfold Fmt.add
    have e2 : A.rnd (x' + U') - (x + U) = (A.rnd (x' + U') - (x' + U')) + (x' + U' - (x + U)) := by ring
    rw [e2]
    refine (abs_add_le _ _).trans ?_
    linarith

/-- **C138** The power law in rounded arithmetic: a relative error of `|alpha| + 2` units. -/
theorem C138_power (A : Fmt) {z zref uref : ℝ} (hz : 0 < z) (hr : 0 < zref) (hu : 0 < uref) (a : ℝ) :
    ∃ y, 0 < y ∧ Verif.powerLaw z zref uref a = fin y ∧ |A.powerLaw z zref uref a - y| ≤ (Real.exp ((|a| + 2) * A.e) - 1) * y := by
  have hp : 0 < z / zref := by positivity
  refine ⟨uref * (z / zref) ^ a, by positivity, ?_, ?_⟩
  · unfold Verif.powerLaw
    rw [fin_div_fin _ hr.ne', pow_fin _ hp, fin_mul_fin]
  · refine rel_of_near ?_ (by positivity)
    have h := A.mul_near (LogNear.refl uref) (A.powGiven_near ((A.rnd_near (z / zref))) hp a)
    exact h.mono (le_of_eq (by ring))

/-- **C138** The logarithmic law in rounded arithmetic, for a reference height above the roughness height: an absolute error of a
few units of `uref / log (zref / z0)` and a relative error of a few units. -/
theorem C138_log (A : Fmt) {z z0 zref uref : ℝ} (hz : 0 ≤ z) (h0 : 0 < z0) (hr : z0 < zref) (hu : 0 < uref)
    (he : 2 * A.e ≤ Real.log (zref / z0)) :
    let D := Real.log (zref / z0)
    let N := Real.log (z / z0 + 1)
    ∃ y, Verif.logLaw z z0 zref uref = fin y ∧ y = uref * N / D ∧
      |A.logLaw z z0 zref uref - y| ≤ uref / D * (2 * A.e) + (Real.exp ((4 + 2 / D) * A.e) - 1) * (uref / D * (N + 2 * A.e)) := by
  intro D N
  have e0 := A.e_nonneg
  have hrz : 1 < zref / z0 := (one_lt_div h0).2 hr
  have Dp : 0 < D := Real.log_pos hrz
  have hzz : 0 ≤ z / z0 := by positivity
  have N0 : 0 ≤ N := Real.log_nonneg (by linarith)
  refine ⟨uref * N / D, ?_, rfl, ?_⟩
  · unfold Verif.logLaw
    rw [fin_div_fin _ h0.ne', fin_div_fin _ h0.ne', fin_add_fin, log_fin (by linarith), log_fin (by linarith), fin_mul_fin,
      fin_div_fin _ Dp.ne']
  · -- numerator
    have a1 : LogNear (2 * A.e) (z / z0 + 1) (A.add (A.div z z0) 1) :=
      (A.add_near (A.rnd_near (z / z0)) (one_near A e0) hzz zero_le_one).mono (le_of_eq (by ring))
    have a2 := a1.abs_log (by linarith)
    obtain ⟨N', hN'⟩ : ∃ N', N' = Real.log (A.add (A.div z z0) 1) := ⟨_, rfl⟩
    rw [← hN'] at a2
    -- denominator
    have b1 := (A.rnd_near (zref / z0)).abs_log (by linarith)
    obtain ⟨D', hD'⟩ : ∃ D', D' = Real.log (A.div zref z0) := ⟨_, rfl⟩
    have b2 : |D' - D| ≤ A.e / D * |D| := by
      rw [hD', abs_of_pos Dp, div_mul_cancel₀ _ Dp.ne']
      exact b1
    have q0 : 0 ≤ A.e / D := by positivity
    have q1 : A.e / D ≤ 1 / 2 := by
      rw [div_le_iff₀ Dp]; linarith
    have b3 : LogNear (2 * (A.e / D)) D D' := (LogNear.of_rel q0 (by linarith) b2).mono (neg_log_le q0 q1)
    have b4 : LogNear (2 * (A.e / D) + A.e) D (A.logF (A.div zref z0)) := by
      have := A.log_near (A.div zref z0)
      rw [← hD'] at this
      exact b3.trans this
    have c1 : LogNear A.e N' (A.logF (A.add (A.div z z0) 1)) := by rw [hN']; exact A.log_near _
    have c2 := A.div_near (A.mul_near (LogNear.refl uref) c1) b4
    have c3 : LogNear ((4 + 2 / D) * A.e) (uref * N' / D) (A.logLaw z z0 zref uref) := c2.mono (le_of_eq (by ring))
    have c4 := c3.sub_le
    have hex : 0 ≤ Real.exp ((4 + 2 / D) * A.e) - 1 := by
      have := Real.add_one_le_exp ((4 + 2 / D) * A.e)
      have : 0 ≤ (4 + 2 / D) * A.e := by positivity
      linarith
    have d1 : |uref * N' / D| ≤ uref / D * (N + 2 * A.e) := by
      have e1 : uref * N' / D = uref / D * N' := by ring
      rw [e1, abs_mul, abs_of_pos (div_pos hu Dp)]
      refine mul_le_mul_of_nonneg_left ?_ (by positivity)
      rw [abs_le] at a2 ⊢
      constructor <;> linarith [a2.1, a2.2]
    have d2 : |uref * N' / D - uref * N / D| ≤ uref / D * (2 * A.e) := by
      have e1 : uref * N' / D - uref * N / D = uref / D * (N' - N) := by ring
      rw [e1, abs_mul, abs_of_pos (div_pos hu Dp)]
      exact mul_le_mul_of_nonneg_left a2 (by positivity)
    have d3 := mul_le_mul_of_nonneg_right d1 hex
    have e3 : A.logLaw z z0 zref uref - uref * N / D =
        (A.logLaw z z0 zref uref - uref * N' / D) + (uref * N' / D - uref * N / D) := by ring
    rw [e3]
    refine (abs_add_le _ _).trans ?_
    linarith [mul_comm (uref / D * (N + 2 * A.e)) (Real.exp ((4 + 2 / D) * A.e) - 1)]

/-- Adding from the left is one of the orders: every block has a standard deviation that may be computed. -/
example (A : Fmt) (l : List ℝ) : ∃ sd, A.SdOf l sd l.length := by
  obtain ⟨s, hs⟩ := Summation.foldl (A := A) (l.map A.sq)
  rw [List.length_map] at hs
  exact ⟨_, s, hs, rfl⟩

/-- A block of `2^21` values added in pairs (nested 21 deep plus numpy's unrolled loops) in double precision: the mean square is one to
`1e-13`. -/
example (A : Fmt) (hv : A.v ≤ 1 / 2 ^ 51) : (((200:ℕ):ℝ) + 6) * A.e ≤ 1e-13 := by
  have h := A.e_le
  have h1 : A.v / (1 - A.v) ≤ 4.5e-16 := by
    rw [div_le_iff₀ (by linarith)]
    linarith
  have h2 : A.e ≤ 4.5e-16 := h.trans h1
  push_cast
  linarith

/-- The power law with exponent `1/7`, 40 m above a reference height of 10 m. -/
example (A : Fmt) : ∃ y, 0 < y ∧ Verif.powerLaw 50 10 8 (1 / 7) = fin y ∧
    |A.powerLaw 50 10 8 (1 / 7) - y| ≤ (Real.exp ((|1 / 7| + 2) * A.e) - 1) * y :=
  C138_power A (by norm_num) (by norm_num) (by norm_num) _

/-- The logarithmic law with roughness 1 m and reference height 10 m meets the hypotheses as soon as `e ≤ 1/4`. -/
example (A : Fmt) (he : A.e ≤ 1 / 4) : 2 * A.e ≤ Real.log ((10:ℝ) / 1) := by
  have h : 1 - (10:ℝ)⁻¹ ≤ Real.log 10 := Real.one_sub_inv_le_log_of_pos (by norm_num)
  norm_num at h ⊢
  linarith

end
end Verif
