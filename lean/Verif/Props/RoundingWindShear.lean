import Verif.Props.RoundingWind
import Verif.Model.RoundedTensor

/-!
# C147: the wind field of the Mann and DRD generators in floating point arithmetic
-/

namespace Verif
open Fl

noncomputable section

/-- The Frobenius norm of the sheared kernel, for a lifetime at most `B - 1`. -/
theorem shear_norm_le {L E0 B : ℝ} (hL : 0 < L) (hE : 0 ≤ E0) (k : K3) {b : ℝ} (hB : 1 + |b| ≤ B) {G : Fin 3 → Fin 3 → ℝ}
    (hG : ∀ i j, shearKernel L E0 k (fin b) i j = fin (G i j)) :
    ∑ i, ∑ j, G i j ^ 2 ≤ (24 * B ^ 3 * Real.sqrt (E0 * L ^ (11 / 3 : ℝ) / (4 * Real.pi))) ^ 2 := by
  have e0 : ShearFmt.exact.e = 0 := by simp [Fmt.e, ShearFmt.exact, Fmt.exact]
  have H : ShearSetting ShearFmt.exact k k b b 0 0 0 0 :=
    ⟨LogNear.refl _, LogNear.refl _, LogNear.refl _, LogNear.refl _, by rw [e0]; simp, by ring, by simp⟩
  have b0 := abs_nonneg b
  have B1 : 1 ≤ B := by linarith
  obtain ⟨c, hc⟩ : ∃ c, c = constR L E0 (kk0R k b) := ⟨_, rfl⟩
  have c0 : 0 ≤ c := by rw [hc]; exact Real.sqrt_nonneg _
  have hGe : ∀ i j, G i j = c * kerR k b i j := fun i j => by
    have := (hG i j).symm.trans (shearKernel_fin hL hE i j)
    rw [hc]; simpa using this
  have κ0 := kapN_nonneg k b
  have K0 := kN_nonneg k
  have s0 := sN_nonneg k
  obtain ⟨ζ, hζ⟩ : ∃ ζ, ζ = kk0R k b / kkR k := ⟨_, rfl⟩
  have ζ0 : 0 ≤ ζ := by rw [hζ]; exact div_nonneg (kk0R_nonneg k b) (kkR_nonneg k)
  -- the scale of the distortion
  have hζs : ζ * sN k ≤ B * kapN k b := by
    rcases K0.eq_or_lt with h0 | h0
    · have : kkR k = 0 := by rw [← kN_sq, ← h0, mul_zero]
      rw [hζ, this, div_zero, zero_mul]
      positivity
    · rw [hζ, ← kN_sq, ← kapN_sq]
      have i1 : kapN k b / kN k ≤ B := by
        rw [div_le_iff₀ h0]
        exact (kapN_le k b).trans (mul_le_mul_of_nonneg_right hB K0)
      have i2 : sN k / kN k ≤ 1 := (div_le_one h0).2 (sN_le_kN k)
      calc kapN k b * kapN k b / (kN k * kN k) * sN k = kapN k b / kN k * (sN k / kN k) * kapN k b := by field_simp
        _ ≤ B * 1 * kapN k b := by gcongr
        _ = _ := by ring
  have hB2 : (1 + |b|) ^ 2 ≤ B ^ 2 := pow_le_pow_left₀ (by linarith) hB 2
  have tl : ∀ i j, |ShearSetting.t0 c k b i j| ≤ c * kapN k b := by
    intro i j
    have l1 := (k1_le_sN k).trans (sN_le_kapN k b)
    have l2 := (k2_le_sN k).trans (sN_le_kapN k b)
    have l3 := t_le_kapN k b
    have z : |(0:ℝ)| ≤ c * kapN k b := by rw [abs_zero]; positivity
    have pos : ∀ {x : ℝ}, |x| ≤ kapN k b → |c * x| ≤ c * kapN k b := fun hx => by
      rw [abs_mul, abs_of_nonneg c0]; exact mul_le_mul_of_nonneg_left hx c0
    have neg : ∀ {x : ℝ}, |x| ≤ kapN k b → |-c * x| ≤ c * kapN k b := fun hx => by
      rw [abs_mul, abs_neg, abs_of_nonneg c0]; exact mul_le_mul_of_nonneg_left hx c0
    fin_cases i <;> fin_cases j
    · exact z
    · exact neg l3
    · exact pos l2
    · exact pos l3
    · exact z
    · exact neg l1
    · exact neg l2
    · exact pos l1
    · exact z
  have zt : ∀ {z : ℝ}, |z| ≤ 7 * (1 + |b|) ^ 2 * ζ → ∀ j, |z * ShearSetting.t0 c k b 2 j| ≤ 7 * B ^ 3 * (c * kapN k b) := by
    intro z hz j
    rw [abs_mul]
    calc |z| * |ShearSetting.t0 c k b 2 j| ≤ (7 * (1 + |b|) ^ 2 * ζ) * (c * sN k) :=
          mul_le_mul hz (ShearSetting.t0_row2 c0 k b j) (abs_nonneg _) (by positivity)
      _ = 7 * (1 + |b|) ^ 2 * (c * (ζ * sN k)) := by ring
      _ ≤ 7 * B ^ 2 * (c * (B * kapN k b)) := by gcongr
      _ = _ := by ring
  have B3 : 1 ≤ B ^ 3 := one_le_pow₀ B1
  have ck0 : 0 ≤ c * kapN k b := by positivity
  have hent : ∀ i j, |G i j| ≤ 8 * B ^ 3 * (c * kapN k b) := by
    intro i j
    rw [hGe]
    have big : c * kapN k b ≤ B ^ 3 * (c * kapN k b) := le_mul_of_one_le_left ck0 B3
    have rows := ShearSetting.ker_rows c k b j
    fin_cases i
    · change |c * kerR k b 0 j| ≤ _
      rw [rows.1]
      have h1 := zt (by rw [hζ]; exact H.zeta1.2.1) j
      exact (abs_add_le _ _).trans (by linarith [tl 0 j])
    · change |c * kerR k b 1 j| ≤ _
      rw [rows.2.1]
      have h1 := zt (by rw [hζ]; exact H.zeta2.2.1) j
      exact (abs_add_le _ _).trans (by linarith [tl 1 j])
    · change |c * kerR k b 2 j| ≤ _
      rw [rows.2.2, ShearSetting.zc3]
      have h1 : |kk0R k b / kkR k| ≤ 7 * (1 + |b|) ^ 2 * ζ := by
        rw [← hζ, abs_of_nonneg ζ0]
        nlinarith [one_le_pow₀ (n := 2) (show (1:ℝ) ≤ 1 + |b| by linarith)]
      linarith [zt h1 j]
  have hck : (c * kapN k b) ^ 2 ≤ E0 * L ^ (11 / 3 : ℝ) / (4 * Real.pi) := by
    rw [mul_pow, pow_two (kapN k b), kapN_sq]
    obtain ⟨κ, hκ⟩ : ∃ κ, κ = kk0R k b := ⟨_, rfl⟩
    have κ0 : 0 ≤ κ := by rw [hκ]; exact kk0R_nonneg k b
    have hsq : c ^ 2 = E0 * L ^ (17 / 3 : ℝ) / (4 * Real.pi) / (1 + L ^ 2 * κ) ^ (17 / 6 : ℝ) := by
      rw [hc, ← hκ]
      unfold constR
      exact Real.sq_sqrt (by positivity)
    have hf := freq_sq_le (t := L ^ 2 * κ) (by positivity)
    have hL' : L ^ (17 / 3 : ℝ) = L ^ (11 / 3 : ℝ) * L ^ 2 := by
      rw [← Real.rpow_natCast, ← Real.rpow_add hL]; norm_num
    rw [← hκ, hsq, hL']
    have : E0 * (L ^ (11 / 3 : ℝ) * L ^ 2) / (4 * Real.pi) / (1 + L ^ 2 * κ) ^ (17 / 6 : ℝ) * κ =
        E0 * L ^ (11 / 3 : ℝ) / (4 * Real.pi) * (L ^ 2 * κ / (1 + L ^ 2 * κ) ^ (17 / 6 : ℝ)) := by
      field_simp
    rw [this]
    exact mul_le_of_le_one_right (by positivity) hf
  rw [mul_pow, Real.sq_sqrt (by positivity)]
  calc ∑ i, ∑ j, G i j ^ 2 ≤ ∑ _i : Fin 3, ∑ _j : Fin 3, (8 * B ^ 3 * (c * kapN k b)) ^ 2 :=
        Finset.sum_le_sum fun i _ => Finset.sum_le_sum fun j _ => by
          rw [← sq_abs]; exact pow_le_pow_left₀ (abs_nonneg _) (hent i j) 2
    _ = (24 * B ^ 3) ^ 2 * (c * kapN k b) ^ 2 := by
        simp only [Finset.sum_const, Finset.card_univ, Fintype.card_fin, nsmul_eq_mul]
        push_cast
        ring
    _ ≤ _ := mul_le_mul_of_nonneg_left hck (by positivity)

variable {env : GenEnv} {a : GenArgs} {g : Gen} {q : ℕ} [NeZero g.shape1.toNat] [NeZero g.shape2.toNat] [NeZero g.shape3.toNat]

/-- The frequencies of the exact sampler. -/
def Spec.freqAt (g : Gen) (k : Box g.shape1.toNat g.shape2.toNat g.shape3.toNat) : K3 :=
  freqOf (g.rf.L.getD 0 0) (g.rf.L.getD 1 0) (g.rf.L.getD 2 0) k

/-- The frequencies computed from the arguments of the constructor. -/
def Spec.freqComp (A : Fmt) (a : GenArgs) (g : Gen) : Box g.shape1.toNat g.shape2.toNat g.shape3.toNat → K3 :=
  A.freqOf (A.period a.d1 a.l1 g.shape1.toNat) (A.period a.d2 a.l2 g.shape2.toNat) (A.period a.d3 a.l3 g.shape3.toNat)

theorem freqComp_near (A : Fmt) (h : genInit env a = (.ok g, q)) (k : Box g.shape1.toNat g.shape2.toNat g.shape3.toNat) :
    LogNear (9 * A.e) (Spec.freqAt g k).k1 (Spec.freqComp A a g k).k1 ∧ LogNear (9 * A.e) (Spec.freqAt g k).k2 (Spec.freqComp A a g k).k2 ∧
    LogNear (9 * A.e) (Spec.freqAt g k).k3 (Spec.freqComp A a g k).k3 := by
  obtain ⟨r1, r2, r3⟩ := rf_periods h
  have p1 : LogNear (2 * A.e) (g.rf.L.getD 0 0) (A.period a.d1 a.l1 g.shape1.toNat) := by rw [r1]; exact period_near A _ _ _
  have p2 : LogNear (2 * A.e) (g.rf.L.getD 1 0) (A.period a.d2 a.l2 g.shape2.toNat) := by rw [r2]; exact period_near A _ _ _
  have p3 : LogNear (2 * A.e) (g.rf.L.getD 2 0) (A.period a.d3 a.l3 g.shape3.toNat) := by rw [r3]; exact period_near A _ _ _
  exact ⟨(freq_near A p1 _ _).mono (le_of_eq (by ring)), (freq_near A p2 _ _).mono (le_of_eq (by ring)),
    (freq_near A p3 _ _).mono (le_of_eq (by ring))⟩

/-- **C147** The wind field of a generator with sheared kernel (Mann or DRD), from the arguments of the constructor on: the frequencies,
the kernel, periods, transform norm, noise, normalisation and mean wind are computed with rounding.  The lifetimes `b` at the exact
frequencies are at most `B - 1`; those computed at the computed frequencies have relative error `α`.  `R` bounds `|log L|` and the logarithm
of `1 + L² k0²` over the grid.  In every new block, the computed values differ from those of the exact call, in the root mean square,
by at most the bound of C145, where the relative error of the spectrum and the norm of the kernel are worked out. -/
theorem C147_shear (A : ShearFmt) (ha : a.PosScales) (h : genInit env a = (.ok g, q)) (hlow : a.low = none)
    {L E0 R B α : ℝ} (hL : 0 < L) (hE : 0 ≤ E0) (h1 : |Real.log L| ≤ R) {b b' : K3 → ℝ}
    (hker : ∀ k, g.kernel.eval (Spec.freqAt g k) = shearKernel L E0 (Spec.freqAt g k) (fin (b (Spec.freqAt g k))))
    (hb : ∀ k, LogNear α (b (Spec.freqAt g k)) (b' (Spec.freqComp A.toFmt a g k)))
    (hgrid : ∀ k, let p := Spec.freqAt g k
      1 + |b p| ≤ B ∧ Real.log (1 + L ^ 2 * (p.k1 ^ 2 + p.k2 ^ 2 + (p.k3 + b p * p.k1) ^ 2)) ≤ R)
    (hs : 416 * B ^ 2 * (α + 38 * A.e) ≤ 1)
    {cs : List (ℕ × ProfileArgs)} (hcs : ∀ r ∈ (g.run cs).1, ∃ f, r = .ok f) {p : ProfileArgs} {n : ℕ} {f : Arr Fl}
    (hf : ((g.run cs).2.generate p n).1 = .ok f) {m : ℕ → ℝ} {U P : ℝ}
    (hm : ∀ c < g.Nz, Spec.meanWind p (c * (a.d3 / 2 ^ a.l3)) = fin (m c) ∧ |m c| ≤ U ∧
      |A.meanWind p (A.zSpace a.d3 (2 ^ a.l3 + 1) c) - m c| ≤ P)
    {η ε ν : ℝ} (hη : 0 ≤ η) (hε : 0 ≤ ε) (hν : 0 ≤ ν) {i d : ℕ} (hi : i < n) {w : g.Cell → ℝ}
    (hw : WindRounded A.toFmt g ((cs.map Prod.fst).sum + i) p (A.shearHalf L E0 b' (Spec.freqComp A.toFmt a g)) (A.normOf a g)
      (A.noiseStd a.d1 a.d2 a.d3 a.l1 a.l2 a.l3) η ε ν d w) :
    let J := (cs.map Prod.fst).sum + i
    ∃ u : g.Cell → ℝ, (∀ (r : Fin g.Nx) (b : Fin g.Ny) (c : Fin g.Nz), f.val? (J * g.Nx + r) b c = some fun k => fin (u (r, b, c, k))) ∧
      Real.sqrt ((∑ x, (w x - u x) ^ 2) / (g.Nx * g.Ny * g.Nz * 3 : ℕ)) ≤
        (Real.exp ((d / 2 + 4) * A.e) - 1) + (Real.exp A.e - 1) * U + Real.exp A.e * P +
        2 * ((1 + η) ^ 2 * (1 + 48 * B ^ 2 * (Real.exp (484 * B ^ 2 * (α + 38 * A.e) + (11 + 5 * R) * A.e) - 1)) * (1 + ε) * (1 + ν) *
            Real.exp (19 / 2 * A.e) - 1) *
          Spec.fieldBound g (24 * B ^ 3 * Real.sqrt (E0 * L ^ (11 / 3 : ℝ) / (4 * Real.pi))) J /
            Real.sqrt (∑ x, Spec.sampled g J x ^ 2) := by
  intro J
  have e0 := A.e_nonneg
  have R0 := (abs_nonneg _).trans h1
  have α0 : 0 ≤ α := (hb 0).nonneg
  have B1 : 1 ≤ B := by have := (hgrid 0).1; linarith [abs_nonneg (b (Spec.freqAt g 0))]
  have ea : α + 2 * (19 * A.e) = α + 38 * A.e := by ring
  have x0 : 0 ≤ Real.exp (484 * B ^ 2 * (α + 38 * A.e) + (11 + 5 * R) * A.e) - 1 := ScaleNear.exp_sub_one_nonneg (by positivity)
  have half := shear_half_near A (kernel := g.kernel.eval) (b := b) (b' := b') (f := Spec.freqComp A.toFmt a g) (t := 9 * A.e)
    (ε := 19 * A.e) (R := R) (a := α) (B := B) hL hE hker (freqComp_near A.toFmt h) (by linarith) hb (fun k => (hgrid k).1)
    (by rw [ea]; exact hs) h1 (fun k => (hgrid k).2)
  rw [ea] at half
  refine C145_generate A.toFmt ha h hlow hcs hf hm hη (by positivity) hε hν (by positivity) (fun k => ⟨?_, half k⟩) hi hw
  have hfin : ∃ G : Fin 3 → Fin 3 → ℝ, ∀ i j, shearKernel L E0 (Spec.freqAt g k) (fin (b (Spec.freqAt g k))) i j = fin (G i j) :=
    ⟨fun i j => constR L E0 (kk0R (Spec.freqAt g k) (b (Spec.freqAt g k))) * kerR (Spec.freqAt g k) (b (Spec.freqAt g k)) i j,
      fun i j => shearKernel_fin hL hE i j⟩
  obtain ⟨G, hG⟩ := hfin
  have hn := shear_norm_le hL hE (Spec.freqAt g k) (hgrid k).1 hG
  refine le_trans (le_of_eq ?_) hn
  refine Finset.sum_congr rfl fun i _ => Finset.sum_congr rfl fun l _ => ?_
  unfold spectrumOf times1j
  have := congrFun (congrFun (hker k) i) l
  unfold Spec.freqAt at this hG
  rw [this, hG, toReal_fin, norm_mul, Complex.norm_I, one_mul, Complex.norm_real, Real.norm_eq_abs, sq_abs]

/-- **C147** The wind field of the Mann generator, from the arguments: `hyp2f1` computed with relative error `ω`. -/
theorem C147_mann (A : ShearFmt) (he : A.e ≤ 1 / 100) (ha : a.PosScales) (h : genInit env a = (.ok g, q)) (hlow : a.low = none)
    {hyp hypF : ℝ → ℝ} (hyp_ok : IsMannHyp hyp) {ω : ℝ} (hω : ∀ z < 0, LogNear ω (hyp z) (hypF z))
    {L E0 Gamma R B : ℝ} (hk : g.kernel = .mann hyp L E0 Gamma) (hL : 0 < L) (hE : 0 ≤ E0) (h1 : |Real.log L| ≤ R)
    (hgrid : ∀ k, let p := Spec.freqAt g k
      1 + |(mannBeta hyp L Gamma p).toReal| ≤ B ∧
      (p.vec ≠ 0 → |Real.log ((p.k1 ^ 2 + p.k2 ^ 2 + p.k3 ^ 2) * L ^ 2)| ≤ R) ∧
      Real.log (1 + L ^ 2 * (p.k1 ^ 2 + p.k2 ^ 2 + (p.k3 + (mannBeta hyp L Gamma p).toReal * p.k1) ^ 2)) ≤ R)
    (hs : 416 * B ^ 2 * ((63 + R) * A.e + ω) ≤ 1)
    {cs : List (ℕ × ProfileArgs)} (hcs : ∀ r ∈ (g.run cs).1, ∃ f, r = .ok f) {p : ProfileArgs} {n : ℕ} {f : Arr Fl}
    (hf : ((g.run cs).2.generate p n).1 = .ok f) {m : ℕ → ℝ} {U P : ℝ}
    (hm : ∀ c < g.Nz, Spec.meanWind p (c * (a.d3 / 2 ^ a.l3)) = fin (m c) ∧ |m c| ≤ U ∧
      |A.meanWind p (A.zSpace a.d3 (2 ^ a.l3 + 1) c) - m c| ≤ P)
    {η ε ν : ℝ} (hη : 0 ≤ η) (hε : 0 ≤ ε) (hν : 0 ≤ ν) {i d : ℕ} (hi : i < n) {w : g.Cell → ℝ}
    (hw : WindRounded A.toFmt g ((cs.map Prod.fst).sum + i) p
      (A.shearHalf L E0 (A.mannBeta hypF L Gamma) (Spec.freqComp A.toFmt a g)) (A.normOf a g)
      (A.noiseStd a.d1 a.d2 a.d3 a.l1 a.l2 a.l3) η ε ν d w) :
    let J := (cs.map Prod.fst).sum + i
    ∃ u : g.Cell → ℝ, (∀ (r : Fin g.Nx) (b : Fin g.Ny) (c : Fin g.Nz), f.val? (J * g.Nx + r) b c = some fun k => fin (u (r, b, c, k))) ∧
      Real.sqrt ((∑ x, (w x - u x) ^ 2) / (g.Nx * g.Ny * g.Nz * 3 : ℕ)) ≤
        (Real.exp ((d / 2 + 4) * A.e) - 1) + (Real.exp A.e - 1) * U + Real.exp A.e * P +
        2 * ((1 + η) ^ 2 * (1 + 48 * B ^ 2 * (Real.exp (484 * B ^ 2 * ((63 + R) * A.e + ω) + (11 + 5 * R) * A.e) - 1)) * (1 + ε) * (1 + ν) *
            Real.exp (19 / 2 * A.e) - 1) *
          Spec.fieldBound g (24 * B ^ 3 * Real.sqrt (E0 * L ^ (11 / 3 : ℝ) / (4 * Real.pi))) J /
            Real.sqrt (∑ x, Spec.sampled g J x ^ 2) := by
  have hh : ∀ x < 0, 0 < hyp x := fun x hx => hyp_ok.mann_hyp_pos hx.le
  have e0 := A.e_nonneg
  have R0 := (abs_nonneg _).trans h1
  have ω0 : 0 ≤ ω := (hω (-1) (by norm_num)).nonneg
  have hfin : ∀ p, mannBeta hyp L Gamma p = fin (mannBeta hyp L Gamma p).toReal := fun p => by
    rw [mannBeta_eq Gamma hL hh]; rfl
  have ea : (7 + R) * A.e + 2 * (9 * A.e) + ω + 38 * A.e = (63 + R) * A.e + ω := by ring
  have key := C147_shear A ha h hlow (α := (7 + R) * A.e + 2 * (9 * A.e) + ω) (B := B) hL hE h1
    (b := fun p => (mannBeta hyp L Gamma p).toReal) (b' := A.mannBeta hypF L Gamma)
    (fun k => by
      rw [hk]
      change mannKernel hyp L E0 Gamma _ = _
      unfold mannKernel
      rw [← hfin])
    (fun k => by
      obtain ⟨m1, m2, m3⟩ := freqComp_near A.toFmt h k
      by_cases hk : (Spec.freqAt g k).vec = 0
      · have z1 : (Spec.freqAt g k).k1 = 0 := congrFun hk 0
        have z2 : (Spec.freqAt g k).k2 = 0 := congrFun hk 1
        have z3 : (Spec.freqAt g k).k3 = 0 := congrFun hk 2
        have hk0 : kkR (Spec.freqAt g k) = 0 := by unfold kkR; rw [z1, z2, z3]; ring
        have y1 : mannBeta hyp L Gamma (Spec.freqAt g k) = fin 0 := by
          rw [mannBeta_eq Gamma hL hh, if_pos hk0]
        have y2 : A.mannBeta hypF L Gamma (Spec.freqComp A.toFmt a g k) = 0 := by
          obtain ⟨s, _, hs⟩ := sumsq_pert A m1 m2 m3
          rw [hk0, zero_mul] at hs
          unfold ShearFmt.mannBeta
          rw [if_pos hs]
        beta_reduce
        rw [y1, y2, toReal_fin]
        exact (LogNear.refl 0).mono (by positivity)
      · obtain ⟨b, hb, hn⟩ := lifetime_near A he hyp_ok hω (Gamma := Gamma) hL m1 m2 m3 hk ((hgrid k).2.1 hk)
        beta_reduce
        rw [hb, toReal_fin]
        exact hn)
    (fun k => ⟨(hgrid k).1, (hgrid k).2.2⟩) (by rw [ea]; exact hs) hcs hf hm hη hε hν hi hw
  rw [ea] at key
  exact key

/-- Bounds `R` and `B` for a grid always exist. -/
example (g : Gen) [NeZero g.shape1.toNat] [NeZero g.shape2.toNat] [NeZero g.shape3.toNat] (hyp : ℝ → ℝ) (L Gamma : ℝ) :
    ∃ R B, |Real.log L| ≤ R ∧ ∀ k, let p := Spec.freqAt g k
      1 + |(mannBeta hyp L Gamma p).toReal| ≤ B ∧
      (p.vec ≠ 0 → |Real.log ((p.k1 ^ 2 + p.k2 ^ 2 + p.k3 ^ 2) * L ^ 2)| ≤ R) ∧
      Real.log (1 + L ^ 2 * (p.k1 ^ 2 + p.k2 ^ 2 + (p.k3 + (mannBeta hyp L Gamma p).toReal * p.k1) ^ 2)) ≤ R := by
  have bd : ∀ F : Box g.shape1.toNat g.shape2.toNat g.shape3.toNat → ℝ, ∃ C, 0 ≤ C ∧ ∀ k, F k ≤ C := fun F =>
    ⟨∑ k, |F k|, Finset.sum_nonneg fun _ _ => abs_nonneg _, fun k =>
      (le_abs_self _).trans (Finset.single_le_sum (f := fun k => |F k|) (fun _ _ => abs_nonneg _) (Finset.mem_univ k))⟩
  obtain ⟨B, -, hB⟩ := bd fun k => 1 + |(mannBeta hyp L Gamma (Spec.freqAt g k)).toReal|
  obtain ⟨C1, c1, h1⟩ := bd fun k => |Real.log (((Spec.freqAt g k).k1 ^ 2 + (Spec.freqAt g k).k2 ^ 2 + (Spec.freqAt g k).k3 ^ 2) * L ^ 2)|
  obtain ⟨C2, c2, h2⟩ := bd fun k => Real.log (1 + L ^ 2 * ((Spec.freqAt g k).k1 ^ 2 + (Spec.freqAt g k).k2 ^ 2 +
    ((Spec.freqAt g k).k3 + (mannBeta hyp L Gamma (Spec.freqAt g k)).toReal * (Spec.freqAt g k).k1) ^ 2))
  have l0 := abs_nonneg (Real.log L)
  exact ⟨|Real.log L| + C1 + C2, B, by linarith, fun k => ⟨hB k, fun _ => (h1 k).trans (by linarith), (h2 k).trans (by linarith)⟩⟩

/-- Double precision, lifetimes up to nine, `R = 20`, `hyp2f1` accurate to `1e-14`: the hypothesis holds, and the relative error of
`Spectrum_half` is below `1.4e-5`. -/
example (A : ShearFmt) (hv : A.v ≤ 1 / 2 ^ 52) :
    A.e ≤ 1 / 100 ∧ 416 * (10:ℝ) ^ 2 * ((63 + 20) * A.e + 1e-14) ≤ 1 ∧
    48 * (10:ℝ) ^ 2 * (Real.exp (484 * 10 ^ 2 * ((63 + 20) * A.e + 1e-14) + (11 + 5 * 20) * A.e) - 1) ≤ 1.4e-5 := by
  have h := A.e_le
  have h1 : A.v / (1 - A.v) ≤ 2.23e-16 := by
    rw [div_le_iff₀ (by linarith)]
    linarith
  have h2 : A.e ≤ 2.23e-16 := h.trans h1
  have e0 := A.e_nonneg
  refine ⟨by linarith, by linarith, ?_⟩
  obtain ⟨x, hx⟩ : ∃ x, x = 484 * (10:ℝ) ^ 2 * ((63 + 20) * A.e + 1e-14) + (11 + 5 * 20) * A.e := ⟨_, rfl⟩
  have q := ScaleNear.exp_sub_one_le (a := x) (by rw [hx]; positivity) (by rw [hx]; linarith)
  rw [← hx]
  have : x ≤ 484 * 10 ^ 2 * ((63 + 20) * 2.23e-16 + 1e-14) + 111 * 2.23e-16 := by rw [hx]; linarith
  linarith

end
end Verif
