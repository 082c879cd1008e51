import Verif.Props.LowFreqMoments

/-!
# Reversing the axes of the low-frequency field, and the momentum fluxes it adds: C128
-/

namespace Verif
open Fl

noncomputable section
open Classical MeasureTheory ProbabilityTheory

section
variable {n1 n2 : ℕ} [NeZero n1] [NeZero n2]

/-- The first index reversed. -/
def flip1 (x : Box n1 n2 1) : Box n1 n2 1 := (-x.1, x.2.1, x.2.2)
/-- The second index reversed. -/
def flip2 (x : Box n1 n2 1) : Box n1 n2 1 := (x.1, -x.2.1, x.2.2)

omit [NeZero n1] [NeZero n2] in
theorem flip1_flip1 (x : Box n1 n2 1) : flip1 (flip1 x) = x := by simp [flip1]
omit [NeZero n1] [NeZero n2] in
theorem flip2_flip2 (x : Box n1 n2 1) : flip2 (flip2 x) = x := by simp [flip2]
omit [NeZero n1] [NeZero n2] in
theorem flip1_sub (x y : Box n1 n2 1) : flip1 (x - y) = flip1 x - flip1 y := by
  refine Prod.ext ?_ rfl
  show -(x.1 - y.1) = -x.1 - -y.1
  ring
omit [NeZero n1] [NeZero n2] in
theorem flip2_sub (x y : Box n1 n2 1) : flip2 (x - y) = flip2 x - flip2 y := by
  refine Prod.ext rfl (Prod.ext ?_ rfl)
  show -(x.2.1 - y.2.1) = -x.2.1 - -y.2.1
  ring

theorem wave_flip1 (k x : Box n1 n2 1) : wave (flip1 k) (flip1 x) = wave k x := by
  unfold wave flip1
  simp only [neg_mul_neg]
theorem wave_flip2 (k x : Box n1 n2 1) : wave (flip2 k) (flip2 x) = wave k x := by
  unfold wave flip2
  simp only [neg_mul_neg]

/-- Sign of component `c` under reversal of the first axis. -/
def sign1 (c : Fin 2) : ℝ := if c = 0 then 1 else -1

theorem nyquist_neg {n : ℕ} [NeZero n] (k : ZMod n) : 2 * (-k).val = n ↔ 2 * k.val = n := by
  constructor
  · intro h
    have := neg_of_nyquist h
    rw [neg_neg] at this
    rw [this]
    exact h
  · intro h
    rw [neg_of_nyquist h]
    exact h

theorem lfAmp_flip1 (lf : LowFreq) (k : Box n1 n2 1) : lfAmp lf (flip1 k) = lfAmp lf k :=
  lfPhi_even (lfFreq_neg_sq _ _) rfl
theorem lfAmp_flip2 (lf : LowFreq) (k : Box n1 n2 1) : lfAmp lf (flip2 k) = lfAmp lf k :=
  lfPhi_even rfl (lfFreq_neg_sq _ _)

theorem lfQr_flip1 (lf : LowFreq) (c : Fin 2) (k : Box n1 n2 1) : lfQr lf c (flip1 k) = sign1 c * lfQr lf c k := by
  fin_cases c
  · change lfQr lf 0 (flip1 k) = ((sign1 0 : ℝ) : ℂ) * lfQr lf 0 k
    rw [lfQr_zero_eq, lfQr_zero_eq, lfAmp_flip1]
    simp [flip1, sign1]
  · change lfQr lf 1 (flip1 k) = ((sign1 1 : ℝ) : ℂ) * lfQr lf 1 k
    rw [lfQr_one_eq, lfQr_one_eq, lfAmp_flip1]
    have e : (flip1 k).1 = -k.1 := rfl
    rw [e]
    by_cases h : 2 * k.1.val = n1
    · rw [if_pos h, if_pos ((nyquist_neg _).2 h), mul_zero]
    · rw [if_neg h, if_neg fun h' => h ((nyquist_neg _).1 h'), lfFreq_neg _ h]
      simp [sign1]
theorem lfQr_flip2 (lf : LowFreq) (c : Fin 2) (k : Box n1 n2 1) : lfQr lf c (flip2 k) = -sign1 c * lfQr lf c k := by
  fin_cases c
  · change lfQr lf 0 (flip2 k) = -((sign1 0 : ℝ) : ℂ) * lfQr lf 0 k
    rw [lfQr_zero_eq, lfQr_zero_eq, lfAmp_flip2]
    have e : (flip2 k).2.1 = -k.2.1 := rfl
    rw [e]
    by_cases h : 2 * k.2.1.val = n2
    · rw [if_pos h, if_pos ((nyquist_neg _).2 h), mul_zero]
    · rw [if_neg h, if_neg fun h' => h ((nyquist_neg _).1 h'), lfFreq_neg _ h]
      simp [sign1]
  · change lfQr lf 1 (flip2 k) = -((sign1 1 : ℝ) : ℂ) * lfQr lf 1 k
    rw [lfQr_one_eq, lfQr_one_eq, lfAmp_flip2]
    simp [flip2, sign1]

theorem lfImp_flip1 (lf : LowFreq) (c : Fin 2) (d : Box n1 n2 1) : lfImp lf c (flip1 d) = sign1 c * lfImp lf c d := by
  have e : ∑ k : Box n1 n2 1, lfQr lf c k * wave k (flip1 d) = ((sign1 c : ℝ) : ℂ) * ∑ k : Box n1 n2 1, lfQr lf c k * wave k d := by
    rw [Finset.mul_sum]
    refine Finset.sum_bij' (fun k _ => flip1 k) (fun k _ => flip1 k) (fun _ _ => Finset.mem_univ _) (fun _ _ => Finset.mem_univ _)
      (fun k _ => flip1_flip1 k) (fun k _ => flip1_flip1 k) fun k _ => ?_
    have hs : ((sign1 c : ℝ) : ℂ) * ((sign1 c : ℝ) : ℂ) = 1 := by fin_cases c <;> simp [sign1]
    rw [lfQr_flip1, ← wave_flip1 (flip1 k) d, flip1_flip1]
    linear_combination (-(lfQr lf c k * wave k (flip1 d))) * hs
  have : (lfImp lf c (flip1 d) : ℂ) = ((sign1 c * lfImp lf c d : ℝ) : ℂ) := by
    push_cast
    rw [lfImp_eq, lfImp_eq, e]
    ring
  exact_mod_cast this
theorem lfImp_flip2 (lf : LowFreq) (c : Fin 2) (d : Box n1 n2 1) : lfImp lf c (flip2 d) = -sign1 c * lfImp lf c d := by
  have e : ∑ k : Box n1 n2 1, lfQr lf c k * wave k (flip2 d) = -((sign1 c : ℝ) : ℂ) * ∑ k : Box n1 n2 1, lfQr lf c k * wave k d := by
    rw [Finset.mul_sum]
    refine Finset.sum_bij' (fun k _ => flip2 k) (fun k _ => flip2 k) (fun _ _ => Finset.mem_univ _) (fun _ _ => Finset.mem_univ _)
      (fun k _ => flip2_flip2 k) (fun k _ => flip2_flip2 k) fun k _ => ?_
    have hs : -((sign1 c : ℝ) : ℂ) * -((sign1 c : ℝ) : ℂ) = 1 := by fin_cases c <;> simp [sign1]
    rw [lfQr_flip2, ← wave_flip2 (flip2 k) d, flip2_flip2]
    linear_combination (-(lfQr lf c k * wave k (flip2 d))) * hs
  have : (lfImp lf c (flip2 d) : ℂ) = ((-sign1 c * lfImp lf c d : ℝ) : ℂ) := by
    push_cast
    rw [lfImp_eq, lfImp_eq, e]
    ring
  exact_mod_cast this

variable {Ω : Type} [MeasurableSpace Ω] {μ : Measure Ω}

theorem lf_cov_flip1 (ξ : Box n1 n2 1 → Ω → ℝ) (hL2 : ∀ x, MemLp (ξ x) 2 μ)
    (hcov : ∀ x y, ∫ ω, ξ x ω * ξ y ω ∂μ = if x = y then 1 else 0) (lf : LowFreq) (c d : Fin 2) (x y : Box n1 n2 1) :
    ∫ ω, lfFull lf (fun z => ξ z ω) c (flip1 x) * lfFull lf (fun z => ξ z ω) d (flip1 y) ∂μ =
      sign1 c * sign1 d * ∫ ω, lfFull lf (fun z => ξ z ω) c x * lfFull lf (fun z => ξ z ω) d y ∂μ := by
  rw [lf_cov ξ hL2 hcov, lf_cov ξ hL2 hcov, Finset.mul_sum]
  refine Finset.sum_bij' (fun k _ => flip1 k) (fun k _ => flip1 k) (fun _ _ => Finset.mem_univ _) (fun _ _ => Finset.mem_univ _)
    (fun k _ => flip1_flip1 k) (fun k _ => flip1_flip1 k) fun z _ => ?_
  have e : ∀ w : Box n1 n2 1, flip1 w - z = flip1 (w - flip1 z) := fun w => by rw [flip1_sub, flip1_flip1]
  rw [e, e, lfImp_flip1, lfImp_flip1]
  ring
theorem lf_cov_flip2 (ξ : Box n1 n2 1 → Ω → ℝ) (hL2 : ∀ x, MemLp (ξ x) 2 μ)
    (hcov : ∀ x y, ∫ ω, ξ x ω * ξ y ω ∂μ = if x = y then 1 else 0) (lf : LowFreq) (c d : Fin 2) (x y : Box n1 n2 1) :
    ∫ ω, lfFull lf (fun z => ξ z ω) c (flip2 x) * lfFull lf (fun z => ξ z ω) d (flip2 y) ∂μ =
      sign1 c * sign1 d * ∫ ω, lfFull lf (fun z => ξ z ω) c x * lfFull lf (fun z => ξ z ω) d y ∂μ := by
  rw [lf_cov ξ hL2 hcov, lf_cov ξ hL2 hcov, Finset.mul_sum]
  refine Finset.sum_bij' (fun k _ => flip2 k) (fun k _ => flip2 k) (fun _ _ => Finset.mem_univ _) (fun _ _ => Finset.mem_univ _)
    (fun k _ => flip2_flip2 k) (fun k _ => flip2_flip2 k) fun z _ => ?_
  have e : ∀ w : Box n1 n2 1, flip2 w - z = flip2 (w - flip2 z) := fun w => by rw [flip2_sub, flip2_flip2]
  rw [e, e, lfImp_flip2, lfImp_flip2]
  ring

end

/-! ### C128 -/

section
variable {Ω : Type} [MeasurableSpace Ω] {μ : Measure Ω} {cfg : LFConfig} {lf : LowFreq} {γ : ℕ → Ω → ℝ}

theorem sign1_mul (c d : Fin 2) : sign1 c * sign1 d = if c = d then 1 else -1 := by
  fin_cases c <;> fin_cases d <;> simp [sign1]

/-- **C128** (rows).  Exchanging the positions of two points of the low-frequency field along the first axis leaves the
covariance of equal components and changes the sign of that of different components. -/
theorem C128_rows (hp : cfg.Pos) (h : lfInit cfg = .ok lf) (hL2 : ∀ m, MemLp (γ m) 2 μ)
    (hcov : ∀ m n, ∫ ω, γ m ω * γ n ω ∂μ = if m = n then 1 else 0) (pos : ℕ) (c d : Fin 2) {i j i' j' : ℕ}
    (hi : i < lf.userN1) (hj : j < lf.userN2) (hi' : i' < lf.userN1) (hj' : j' < lf.userN2) :
    ∫ ω, (Spec.pick c (Spec.lowField lf (fun n => γ n ω) pos)).entry i' j *
        (Spec.pick d (Spec.lowField lf (fun n => γ n ω) pos)).entry i j' ∂μ =
      (if c = d then 1 else -1) * ∫ ω, (Spec.pick c (Spec.lowField lf (fun n => γ n ω) pos)).entry i j *
        (Spec.pick d (Spec.lowField lf (fun n => γ n ω) pos)).entry i' j' ∂μ := by
  obtain ⟨⟨-, c1, -, c2⟩, -⟩ := C67_grid hp h
  haveI : NeZero lf.compN1 := ⟨by omega⟩
  haveI : NeZero lf.compN2 := ⟨by omega⟩
  simp only [lowField_entry hp h _ pos _ hi hj, lowField_entry hp h _ pos _ hi' hj, lowField_entry hp h _ pos _ hi hj',
    lowField_entry hp h _ pos _ hi' hj']
  rw [← sign1_mul, ← lf_cov_flip1 (fun z ω => lfNoise (fun m => γ m ω) pos z) (fun z => hL2 _)
    (fun y z => lfNoise_white γ hcov pos y z)]
  rw [← C82_stationary (fun z ω => lfNoise (fun m => γ m ω) pos z) (fun z => hL2 _) (fun y z => lfNoise_white γ hcov pos y z) lf c d
    (flip1 _) (flip1 _) ((((lf.compN1 - lf.userN1) / 2 + i + ((lf.compN1 - lf.userN1) / 2 + i') : ℕ) : ZMod lf.compN1), 0, 0)]
  congr 1
  funext ω
  congr 2
  · refine Prod.ext ?_ (Prod.ext ?_ rfl)
    · simp [flip1]
      ring
    · simp [flip1]
  · refine Prod.ext ?_ (Prod.ext ?_ rfl)
    · simp [flip1]
      ring
    · simp [flip1]

/-- **C128** (columns).  The same along the second axis. -/
theorem C128_columns (hp : cfg.Pos) (h : lfInit cfg = .ok lf) (hL2 : ∀ m, MemLp (γ m) 2 μ)
    (hcov : ∀ m n, ∫ ω, γ m ω * γ n ω ∂μ = if m = n then 1 else 0) (pos : ℕ) (c d : Fin 2) {i j i' j' : ℕ}
    (hi : i < lf.userN1) (hj : j < lf.userN2) (hi' : i' < lf.userN1) (hj' : j' < lf.userN2) :
    ∫ ω, (Spec.pick c (Spec.lowField lf (fun n => γ n ω) pos)).entry i j' *
        (Spec.pick d (Spec.lowField lf (fun n => γ n ω) pos)).entry i' j ∂μ =
      (if c = d then 1 else -1) * ∫ ω, (Spec.pick c (Spec.lowField lf (fun n => γ n ω) pos)).entry i j *
        (Spec.pick d (Spec.lowField lf (fun n => γ n ω) pos)).entry i' j' ∂μ := by
  obtain ⟨⟨-, c1, -, c2⟩, -⟩ := C67_grid hp h
  haveI : NeZero lf.compN1 := ⟨by omega⟩
  haveI : NeZero lf.compN2 := ⟨by omega⟩
  simp only [lowField_entry hp h _ pos _ hi hj, lowField_entry hp h _ pos _ hi' hj, lowField_entry hp h _ pos _ hi hj',
    lowField_entry hp h _ pos _ hi' hj']
  rw [← sign1_mul, ← lf_cov_flip2 (fun z ω => lfNoise (fun m => γ m ω) pos z) (fun z => hL2 _)
    (fun y z => lfNoise_white γ hcov pos y z)]
  rw [← C82_stationary (fun z ω => lfNoise (fun m => γ m ω) pos z) (fun z => hL2 _) (fun y z => lfNoise_white γ hcov pos y z) lf c d
    (flip2 _) (flip2 _) (0, (((lf.compN2 - lf.userN2) / 2 + j + ((lf.compN2 - lf.userN2) / 2 + j') : ℕ) : ZMod lf.compN2), 0)]
  congr 1
  funext ω
  congr 2
  · refine Prod.ext ?_ (Prod.ext ?_ rfl)
    · simp [flip2]
    · simp [flip2]
      ring
  · refine Prod.ext ?_ (Prod.ext ?_ rfl)
    · simp [flip2]
    · simp [flip2]
      ring

/-- **C128** (components).  The two components of the low-frequency field are uncorrelated at any two points on a common line
along either axis, in particular at every point. -/
theorem C128_uncorrelated (hp : cfg.Pos) (h : lfInit cfg = .ok lf) (hL2 : ∀ m, MemLp (γ m) 2 μ)
    (hcov : ∀ m n, ∫ ω, γ m ω * γ n ω ∂μ = if m = n then 1 else 0) (pos : ℕ) {i j i' j' : ℕ}
    (hi : i < lf.userN1) (hj : j < lf.userN2) (hi' : i' < lf.userN1) (hj' : j' < lf.userN2) (hline : i = i' ∨ j = j') :
    ∫ ω, (Spec.lowField lf (fun n => γ n ω) pos).1.entry i j * (Spec.lowField lf (fun n => γ n ω) pos).2.entry i' j' ∂μ = 0 := by
  rcases hline with rfl | rfl
  · have := C128_rows hp h hL2 hcov pos 0 1 hi hj hi' hj'
    simp only [Spec.pick, zero_ne_one, if_false] at this
    linarith
  · have := C128_columns hp h hL2 hcov pos 0 1 hi hj hi' hj'
    simp only [Spec.pick, zero_ne_one, if_false] at this
    linarith

end

/-! ### The momentum fluxes of the wind -/

/-- The one-dimensional weights of linear interpolation between equidistant nodes. -/
theorem axis_weights {L : ℝ} {N : ℕ} (hL : 0 < L) (hN : 2 ≤ N) (x : ℝ) :
    ∃ A : Fin N → ℝ, ((x < 0 ∨ ((N - 1 : ℕ) : ℝ) * (L / N) < x) ∧ A = fun _ => 0) ∨
      ∃ (i : ℕ) (hi : i + 1 < N) (s : ℝ), 0 ≤ s ∧ s ≤ 1 ∧ x = ((i : ℝ) + s) * (L / N) ∧
        ∀ f : Fin N → ℝ, ∑ v, A v * f v = (1 - s) * f ⟨i, by omega⟩ + s * f ⟨i + 1, hi⟩ := by
  by_cases hout : x < 0 ∨ ((N - 1 : ℕ) : ℝ) * (L / N) < x
  · exact ⟨_, Or.inl ⟨hout, rfl⟩⟩
  · push Not at hout
    obtain ⟨i, s, hi, s0, s1, hx⟩ := axis_locate hL hN hout.1 hout.2
    refine ⟨fun v => (if v = ⟨i, by omega⟩ then 1 - s else 0) + if v = ⟨i + 1, hi⟩ then s else 0, Or.inr ⟨i, hi, s, s0, s1, hx, ?_⟩⟩
    intro f
    simp only [add_mul, ite_mul, zero_mul, Finset.sum_add_distrib, Finset.sum_ite_eq', Finset.mem_univ, if_true]

/-- The weights of the interpolation are products of one factor for each coordinate. -/
theorem interp_factors {L1 L2 : ℝ} {N1 N2 : ℕ} (hL1 : 0 < L1) (hL2 : 0 < L2) (hN1 : 2 ≤ N1) (hN2 : 2 ≤ N2) :
    ∃ (A : ℝ → Fin N1 → ℝ) (B : ℝ → Fin N2 → ℝ), ∀ (x y : ℝ) (m : Mat),
      interpAt (lfCoords L1 N1) (lfCoords L2 N2) m x y = ∑ i, ∑ j, A x i * B y j * m.entry i j := by
  choose A hA using axis_weights (N := N1) hL1 hN1
  choose B hB using axis_weights (N := N2) hL2 hN2
  refine ⟨A, B, fun x y m => ?_⟩
  have hz : (x < 0 ∨ ((N1 - 1 : ℕ) : ℝ) * (L1 / N1) < x) ∨ (y < 0 ∨ ((N2 - 1 : ℕ) : ℝ) * (L2 / N2) < y) →
      interpAt (lfCoords L1 N1) (lfCoords L2 N2) m x y = 0 := by
    intro h
    unfold interpAt
    rw [lfCoords_head (by omega), lfCoords_head (by omega), lfCoords_last (by omega), lfCoords_last (by omega), if_pos (by tauto)]
  rcases hA x with ⟨ho, hA⟩ | ⟨i, hi, s, s0, s1, hx, hA⟩
  · rw [hz (Or.inl ho), hA]
    simp
  · rcases hB y with ⟨ho, hB⟩ | ⟨j, hj, t, t0, t1, hy, hB⟩
    · rw [hz (Or.inr ho), hB]
      simp
    · have e : ∀ v : Fin N1, ∑ w, A x v * B y w * m.entry v w = A x v * ∑ w, B y w * m.entry v w := fun v => by
        rw [Finset.mul_sum]
        exact Finset.sum_congr rfl fun w _ => by ring
      simp only [e]
      rw [hA fun v => ∑ w, B y w * m.entry v w]
      simp only [hB fun w => m.entry _ w]
      have := C72_bilinear hL1 hL2 m hi hj s0 s1 t0 t1
      rw [← hx, ← hy] at this
      rw [this]
      ring

section
variable {Ω : Type} [MeasurableSpace Ω] {μ : Measure Ω}

/-- The covariance of two weighted sums, as one sum over four indices. -/
theorem integral_factors {ι κ : Type*} [Fintype ι] [Fintype κ] (A A' : ι → ℝ) (B B' : κ → ℝ) (U V : ι → κ → Ω → ℝ)
    (hU : ∀ i j, MemLp (U i j) 2 μ) (hV : ∀ i j, MemLp (V i j) 2 μ) :
    ∫ ω, (∑ i, ∑ j, A i * B j * U i j ω) * (∑ i, ∑ j, A' i * B' j * V i j ω) ∂μ =
      ∑ i, ∑ j, ∑ i', ∑ j', A i * B j * (A' i' * B' j') * ∫ ω, U i j ω * V i' j' ω ∂μ := by
  have hint : ∀ i j i' j', Integrable (fun ω => A i * B j * (A' i' * B' j') * (U i j ω * V i' j' ω)) μ := fun i j i' j' =>
    ((hU i j).integrable_mul (hV i' j')).const_mul _
  have e : ∀ ω, (∑ i, ∑ j, A i * B j * U i j ω) * (∑ i, ∑ j, A' i * B' j * V i j ω) =
      ∑ i, ∑ j, ∑ i', ∑ j', A i * B j * (A' i' * B' j') * (U i j ω * V i' j' ω) := by
    intro ω
    rw [Finset.sum_mul]
    refine Finset.sum_congr rfl fun i _ => ?_
    rw [Finset.sum_mul]
    refine Finset.sum_congr rfl fun j _ => ?_
    rw [Finset.mul_sum]
    refine Finset.sum_congr rfl fun i' _ => ?_
    rw [Finset.mul_sum]
    exact Finset.sum_congr rfl fun j' _ => by ring
  simp only [e]
  rw [integral_finset_sum _ fun i _ => integrable_finset_sum _ fun j _ => integrable_finset_sum _ fun i' _ =>
    integrable_finset_sum _ fun j' _ => hint i j i' j']
  refine Finset.sum_congr rfl fun i _ => ?_
  rw [integral_finset_sum _ fun j _ => integrable_finset_sum _ fun i' _ => integrable_finset_sum _ fun j' _ => hint i j i' j']
  refine Finset.sum_congr rfl fun j _ => ?_
  rw [integral_finset_sum _ fun i' _ => integrable_finset_sum _ fun j' _ => hint i j i' j']
  refine Finset.sum_congr rfl fun i' _ => ?_
  rw [integral_finset_sum _ fun j' _ => hint i j i' j']
  exact Finset.sum_congr rfl fun j' _ => integral_const_mul _ _

theorem sum_antisym {ι : Type*} [Fintype ι] (F : ι → ι → ℝ) (h : ∀ i i', F i' i = -F i i') : ∑ i, ∑ i', F i i' = 0 := by
  have e : ∑ i, ∑ i', F i i' = -∑ i, ∑ i', F i i' := by
    conv_lhs => rw [Finset.sum_comm]
    rw [← Finset.sum_neg_distrib]
    refine Finset.sum_congr rfl fun i _ => ?_
    rw [← Finset.sum_neg_distrib]
    exact Finset.sum_congr rfl fun i' _ => h i i'
  linarith

theorem quad_antisym_rows {ι κ : Type*} [Fintype ι] [Fintype κ] (A : ι → ℝ) (B B' : κ → ℝ) (R : ι → κ → ι → κ → ℝ)
    (h : ∀ i i' j j', R i' j i j' = -R i j i' j') :
    ∑ i, ∑ j, ∑ i', ∑ j', A i * B j * (A i' * B' j') * R i j i' j' = 0 := by
  rw [← sum_antisym (fun i i' => ∑ j, ∑ j', A i * B j * (A i' * B' j') * R i j i' j') fun i i' => by
    rw [← Finset.sum_neg_distrib]
    refine Finset.sum_congr rfl fun j _ => ?_
    rw [← Finset.sum_neg_distrib]
    refine Finset.sum_congr rfl fun j' _ => ?_
    rw [h]
    ring]
  exact Finset.sum_congr rfl fun i _ => Finset.sum_comm

theorem quad_antisym_columns {ι κ : Type*} [Fintype ι] [Fintype κ] (A A' : ι → ℝ) (B : κ → ℝ) (R : ι → κ → ι → κ → ℝ)
    (h : ∀ i i' j j', R i j' i' j = -R i j i' j') :
    ∑ i, ∑ j, ∑ i', ∑ j', A i * B j * (A' i' * B j') * R i j i' j' = 0 := by
  refine Finset.sum_eq_zero fun i _ => ?_
  rw [Finset.sum_congr rfl fun j _ => Finset.sum_comm (f := fun i' j' => A i * B j * (A' i' * B j') * R i j i' j')]
  refine sum_antisym (fun j j' => ∑ i', A i * B j * (A' i' * B j') * R i j i' j') fun j j' => ?_
  rw [← Finset.sum_neg_distrib]
  refine Finset.sum_congr rfl fun i' _ => ?_
  rw [h]
  ring

/-- The interpolated components are uncorrelated at two points that share a coordinate. -/
theorem low_uv_zero {cfg : LFConfig} {lf : LowFreq} {γ : ℕ → Ω → ℝ} (hp : cfg.Pos) (h1 : 1 ≤ cfg.exp1) (h2 : 1 ≤ cfg.exp2)
    (h : lfInit cfg = .ok lf) (hL2 : ∀ m, MemLp (γ m) 2 μ) (hcov : ∀ m n, ∫ ω, γ m ω * γ n ω ∂μ = if m = n then 1 else 0)
    (pos : ℕ) {x y x' y' : ℝ} (hline : x = x' ∨ y = y') :
    ∫ ω, Spec.lowPart lf (Spec.lowField lf (fun n => γ n ω) pos) 0 x y *
      Spec.lowPart lf (Spec.lowField lf (fun n => γ n ω) pos) 1 x' y' ∂μ = 0 := by
  obtain ⟨L1, L2, N1, N2, c1, c2⟩ := lf_facts hp h1 h2 h
  haveI : NeZero lf.compN1 := ⟨c1.ne'⟩
  haveI : NeZero lf.compN2 := ⟨c2.ne'⟩
  obtain ⟨A, B, hAB⟩ := interp_factors L1 L2 N1 N2
  simp only [Spec.lowPart, hAB]
  have hent : ∀ (c : Fin 2) (i : Fin lf.userN1) (j : Fin lf.userN2),
      MemLp (fun ω => (Spec.pick c (Spec.lowField lf (fun n => γ n ω) pos)).entry i j) 2 μ := by
    intro c i j
    have : StreamLinear fun γ => (Spec.pick c (Spec.lowField lf γ pos)).entry i j := by
      simp only [lowField_entry hp h _ pos c i.isLt j.isLt, lfFull_imp]
      exact StreamLinear.sum _ fun v _ => (StreamLinear.value _).mul _
    exact this.memLp hL2
  have hsum := integral_factors (A x) (A x') (B y) (B y')
    (fun i j ω => (Spec.pick 0 (Spec.lowField lf (fun n => γ n ω) pos)).entry i j)
    (fun i j ω => (Spec.pick 1 (Spec.lowField lf (fun n => γ n ω) pos)).entry i j) (hent 0) (hent 1)
  simp only [Spec.pick] at hsum
  rw [hsum]
  have hr := fun (i i' : Fin lf.userN1) (j j' : Fin lf.userN2) => C128_rows hp h hL2 hcov pos 0 1 i.isLt j.isLt i'.isLt j'.isLt
  have hc := fun (i i' : Fin lf.userN1) (j j' : Fin lf.userN2) => C128_columns hp h hL2 hcov pos 0 1 i.isLt j.isLt i'.isLt j'.isLt
  simp only [Spec.pick, zero_ne_one, if_false] at hr hc
  rcases hline with rfl | rfl
  · exact quad_antisym_rows _ _ _ (fun (i : Fin lf.userN1) (j : Fin lf.userN2) (i' : Fin lf.userN1) (j' : Fin lf.userN2) =>
      ∫ ω, (Spec.lowField lf (fun n => γ n ω) pos).1.entry i j *
      (Spec.lowField lf (fun n => γ n ω) pos).2.entry i' j' ∂μ) fun i i' j j' => by simpa using hr i i' j j'
  · exact quad_antisym_columns _ _ _ (fun (i : Fin lf.userN1) (j : Fin lf.userN2) (i' : Fin lf.userN1) (j' : Fin lf.userN2) =>
      ∫ ω, (Spec.lowField lf (fun n => γ n ω) pos).1.entry i j *
      (Spec.lowField lf (fun n => γ n ω) pos).2.entry i' j' ∂μ) fun i i' j j' => by simpa using hc i i' j j'

/-- Every covariance with the third component is unaffected. -/
theorem low_w_zero (lf : LowFreq) (u : Mat × Mat) (x y : ℝ) : Spec.lowPart lf u 2 x y = 0 := rfl

variable [IsProbabilityMeasure μ] {ξ : ℕ → Ω → ℝ} {ν : Measure ℝ} {γ : ℕ → Ω → ℝ} {env : GenEnv} {a : GenArgs} {g : Gen}
  {cfg : LFConfig} {lf : LowFreq} {p : ProfileArgs}

/-- **C128** (wind).  The low-frequency model leaves the covariance of two different components of the wind as it is whenever one
of them is the vertical one, or the two points share their place along the wind within the block row, or their lateral position. -/
theorem C128_wind (S : Spec.LowSetting μ ξ ν γ env a g cfg lf p) (s t : Spec.Spot g)
    (hk : s.k = 2 ∨ t.k = 2 ∨ (s.k ≠ t.k ∧ ((s.i = t.i ∧ s.r = t.r) ∨ s.b = t.b))) :
    cov[fun ω => s.wind env { a with low := some cfg } p (fun n => ξ n ω) (fun n => γ n ω),
        fun ω => t.wind env { a with low := some cfg } p (fun n => ξ n ω) (fun n => γ n ω); μ] =
      cov[fun ω => s.wind env a p (fun n => ξ n ω) (fun n => γ n ω),
        fun ω => t.wind env a p (fun n => ξ n ω) (fun n => γ n ω); μ] := by
  rw [C127_covariance S s t]
  have key : ∫ ω, s.low env a lf (fun n => γ n ω) * t.low env a lf (fun n => γ n ω) ∂μ = 0 := by
    by_cases h2 : s.k = 2
    · simp [Spec.Spot.low, h2, low_w_zero]
    by_cases h2' : t.k = 2
    · simp [Spec.Spot.low, h2', low_w_zero]
    obtain ⟨hne, hl⟩ := (hk.resolve_left h2).resolve_left h2'
    have hx : (Spec.lowPoint a lf s.i s.r s.b).1 = (Spec.lowPoint a lf t.i t.r t.b).1 ∨
        (Spec.lowPoint a lf s.i s.r s.b).2 = (Spec.lowPoint a lf t.i t.r t.b).2 := by
      rcases hl with ⟨e1, e2⟩ | e
      · left; simp [Spec.lowPoint, e1, e2]
      · right; simp [Spec.lowPoint, e]
    have hz := fun (x y x' y' : ℝ) (hh : x = x' ∨ y = y') =>
      low_uv_zero S.pos S.exp1 S.exp2 S.low S.square S.white env.globPos hh
    have h01 : (s.k = 0 ∧ t.k = 1) ∨ (s.k = 1 ∧ t.k = 0) := by omega
    rcases h01 with ⟨e0, e1⟩ | ⟨e1, e0⟩
    · simp only [Spec.Spot.low, e0, e1]
      exact hz _ _ _ _ hx
    · simp only [Spec.Spot.low, e0, e1]
      rw [← hz _ _ _ _ (hx.imp Eq.symm Eq.symm)]
      exact integral_congr_ae (Filter.Eventually.of_forall fun ω => mul_comm _ _)
  rw [key, add_zero]

end

/-- A concrete case of C128: in the example box with the example low-frequency model and normal noise, the covariance of the
first two components at the first point is that without the model. -/
example (env : GenEnv) : ∃ (g : Gen) (s t : Spec.Spot g), s.k = 0 ∧ t.k = 1 ∧ s.i = 0 ∧ s.b = t.b ∧
    cov[fun ω : (ℕ → ℝ) × (ℕ → ℝ) => s.wind env { exampleArgs with low := some exampleLow } ⟨90, 11, 0.03, "LOG", none⟩ ω.1 ω.2,
        fun ω => t.wind env { exampleArgs with low := some exampleLow } ⟨90, 11, 0.03, "LOG", none⟩ ω.1 ω.2;
      (Measure.infinitePi fun _ : ℕ => gaussianReal 0 1).prod (Measure.infinitePi fun _ : ℕ => gaussianReal 0 1)] =
      cov[fun ω : (ℕ → ℝ) × (ℕ → ℝ) => s.wind env exampleArgs ⟨90, 11, 0.03, "LOG", none⟩ ω.1 ω.2,
        fun ω => t.wind env exampleArgs ⟨90, 11, 0.03, "LOG", none⟩ ω.1 ω.2;
      (Measure.infinitePi fun _ : ℕ => gaussianReal 0 1).prod (Measure.infinitePi fun _ : ℕ => gaussianReal 0 1)] := by
  obtain ⟨g, lf, S, -, ⟨s⟩⟩ := lowSetting_example env
  exact ⟨g, ⟨[], (fun c hc => by cases hc), 1, 0, one_pos, s.r, s.b, s.c, 0⟩, ⟨[], (fun c hc => by cases hc), 1, 0, one_pos, s.r, s.b, s.c, 1⟩,
    rfl, rfl, rfl, rfl, C128_wind S _ _ (Or.inr (Or.inr ⟨by simp, Or.inr rfl⟩))⟩

end
end Verif
