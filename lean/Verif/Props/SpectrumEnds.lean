import Verif.Props.ParamContinuity
import Verif.Props.Coherence
import Verif.Props.MannLifetime
import Verif.Props.Eddy
import Mathlib.Analysis.SpecialFunctions.Arsinh
import Mathlib.Analysis.SpecialFunctions.Pow.Asymptotics

/-!
# Predicted spectra far outside the fitted range: C119
-/

namespace Verif
open Fl Filter Topology MeasureTheory Verif.Spec

noncomputable section

/-! ### The tensor at large streamwise wavenumbers -/

/-- Condition on the exponents of the learnable spectrum under which it is bounded. -/
def SpectrumChoice.Bounded : SpectrumChoice → Prop
  | .vkLike => True
  | .learnable p q => 0 ≤ p ∧ p ≤ 2 * q

theorem learnE_le {L M p q κ : ℝ} (hL : 0 < L) (hM : 0 ≤ M) (hp : 0 ≤ p) (hq : p ≤ 2 * q) (hκ : 0 ≤ κ) :
    Spec.learnE L M p q κ ≤ M * L ^ (5 / 3 : ℝ) := by
  unfold Spec.learnE
  have hx : 0 ≤ L * κ := by positivity
  set x := L * κ
  have h1 : 1 ≤ 1 + x ^ 2 := by nlinarith [sq_nonneg x]
  have h2 : x ^ p ≤ (1 + x ^ 2) ^ q := by
    calc x ^ p ≤ (Real.sqrt (1 + x ^ 2)) ^ p :=
          Real.rpow_le_rpow hx (Real.le_sqrt_of_sq_le (by linarith)) hp
      _ = (1 + x ^ 2) ^ (p / 2) := by
          rw [Real.sqrt_eq_rpow, ← Real.rpow_mul (by linarith)]
          congr 1; ring
      _ ≤ (1 + x ^ 2) ^ q := Real.rpow_le_rpow_of_exponent_le h1 (by linarith)
  have h3 : x ^ p / (1 + x ^ 2) ^ q ≤ 1 := (div_le_one (Real.rpow_pos_of_pos (by linarith) _)).2 h2
  calc M * L ^ (5 / 3 : ℝ) * (x ^ p / (1 + x ^ 2) ^ q) ≤ M * L ^ (5 / 3 : ℝ) * 1 := by gcongr
    _ = _ := mul_one _

theorem vkE_learnE {L M κ : ℝ} (hL : 0 < L) (hκ : 0 < κ) : vkE L M κ = Spec.learnE L M 4 (17 / 6) κ := by
  unfold vkE Spec.learnE
  have h1 : 0 < 1 + (κ * L) ^ 2 := by positivity
  rw [Real.div_rpow (by positivity) (Real.sqrt_nonneg _), Real.sqrt_eq_rpow, ← Real.rpow_mul h1.le,
    show (1 / 2 * (17 / 3) : ℝ) = 17 / 6 by norm_num, mul_comm κ L, Real.mul_rpow hL.le hκ.le, Real.mul_rpow hL.le hκ.le]
  have e1 : κ ^ (17 / 3 : ℝ) = κ ^ (5 / 3 : ℝ) * κ ^ (4 : ℝ) := by rw [← Real.rpow_add hκ]; norm_num
  have e2 : L ^ (17 / 3 : ℝ) = L ^ (5 / 3 : ℝ) * L ^ (4 : ℝ) := by rw [← Real.rpow_add hL]; norm_num
  have e3 : κ ^ (-5 / 3 : ℝ) * κ ^ (5 / 3 : ℝ) = 1 := by rw [← Real.rpow_add hκ]; norm_num
  rw [e1, e2]
  calc _ = M * (κ ^ (-5 / 3 : ℝ) * κ ^ (5 / 3 : ℝ)) * L ^ (5 / 3 : ℝ) *
        (L ^ (4 : ℝ) * κ ^ (4 : ℝ) / (1 + (L * κ) ^ 2) ^ (17 / 6 : ℝ)) := by ring
    _ = _ := by rw [e3, mul_one]

theorem energyOf_le {L M : ℝ} (hL : 0 < L) (hM : 0 ≤ M) {sp : SpectrumChoice} (h : sp.Bounded) {κ : ℝ} (hκ : 0 < κ) :
    Spec.energyOf L M sp κ ≤ M * L ^ (5 / 3 : ℝ) := by
  cases sp with
  | vkLike =>
    show vkE L M κ ≤ _
    rw [vkE_learnE hL hκ]
    exact learnE_le hL hM (by norm_num) (by norm_num) hκ.le
  | learnable p q => exact learnE_le hL hM h.1 h.2 hκ.le

set_option maxHeartbeats 1000000 in
theorem ker_large {R B : ℝ} (hR : 0 ≤ R) (hB : 0 ≤ B) : ∃ G, 0 ≤ G ∧ ∀ k1 ≥ 1, ∀ k2 k3 b : ℝ, |k2| ≤ R → |k3| ≤ R → |b| ≤ B →
    ∀ i j, |kerR ⟨k1, k2, k3⟩ b i j| ≤ G * k1 := by
  obtain ⟨t0, ht0⟩ : ∃ x : ℝ, x = R + B := ⟨_, rfl⟩
  obtain ⟨A, hA⟩ : ∃ x : ℝ, x = 1 + R ^ 2 + t0 ^ 2 := ⟨_, rfl⟩
  obtain ⟨c, hc⟩ : ∃ x : ℝ, x = B * (A + 2 * t0 ^ 2 + B * t0) := ⟨_, rfl⟩
  obtain ⟨Z, hZ⟩ : ∃ x : ℝ, x = (1 + R) * (c + R * A * Real.pi) := ⟨_, rfl⟩
  have pt : 0 ≤ t0 := by rw [ht0]; positivity
  have pA : 0 ≤ A := by rw [hA]; positivity
  have pc : 0 ≤ c := by rw [hc]; positivity
  have ppi := Real.pi_pos
  have pZ : 0 ≤ Z := by rw [hZ]; positivity
  refine ⟨t0 + Z + Z * R + R + 1 + A * R + A, by positivity, fun k1 hk1 k2 k3 b h2 h3 hb i j => ?_⟩
  have hk0 : (0:ℝ) < k1 := by linarith
  have hk1' : (1:ℝ) ≤ k1 ^ 2 := by nlinarith
  have hne : (⟨k1, k2, k3⟩ : K3).k1 ≠ 0 := hk0.ne'
  set t := k30R ⟨k1, k2, k3⟩ b with htd
  have ht : |t| ≤ t0 * k1 := by
    have e : t = k3 + b * k1 := rfl
    rw [e]
    refine (abs_add_le _ _).trans ?_
    rw [abs_mul, abs_of_pos hk0, ht0, add_mul]
    exact add_le_add (by nlinarith) (by gcongr)
  have h22 : k2 ^ 2 ≤ R ^ 2 := sq_le_sq' (by linarith [(abs_le.1 h2).1]) (abs_le.1 h2).2
  have htt : t ^ 2 ≤ t0 ^ 2 * k1 ^ 2 := by
    rw [← mul_pow]; exact sq_le_sq' (by linarith [(abs_le.1 ht).1]) (abs_le.1 ht).2
  have e0 : kk0R ⟨k1, k2, k3⟩ b = k1 * k1 + k2 * k2 + t * t := rfl
  have es : sR ⟨k1, k2, k3⟩ = k1 * k1 + k2 * k2 := rfl
  have ek : kkR ⟨k1, k2, k3⟩ = k1 * k1 + k2 * k2 + k3 * k3 := rfl
  have b0 : kk0R ⟨k1, k2, k3⟩ b ≤ A * k1 ^ 2 := by
    rw [e0, hA]
    have : R ^ 2 ≤ R ^ 2 * k1 ^ 2 := by nlinarith [sq_nonneg R]
    nlinarith
  have p0 : 0 ≤ kk0R ⟨k1, k2, k3⟩ b := (kk0R_pos hne).le
  have bs : k1 ^ 2 ≤ sR ⟨k1, k2, k3⟩ := by rw [es]; nlinarith [sq_nonneg k2]
  have pk : 0 ≤ kkR ⟨k1, k2, k3⟩ := (kkR_pos hne).le
  have bk : k1 ^ 2 ≤ kkR ⟨k1, k2, k3⟩ := by rw [ek]; nlinarith [sq_nonneg k2, sq_nonneg k3]
  have b3 : |z3R ⟨k1, k2, k3⟩ b| ≤ A := by
    unfold z3R
    rw [abs_of_nonneg (div_nonneg p0 (kkR_pos hne).le), div_le_iff₀ (kkR_pos hne)]
    exact b0.trans (by gcongr)
  have bc1 : |c1R ⟨k1, k2, k3⟩ b| ≤ c := by
    unfold c1R
    rw [abs_div, abs_of_pos (mul_pos (kkR_pos hne) (sR_pos hne)), div_le_iff₀ (mul_pos (kkR_pos hne) (sR_pos hne))]
    have hbr : |kk0R ⟨k1, k2, k3⟩ b - 2 * (t * t) + b * k1 * t| ≤ (A + 2 * t0 ^ 2 + B * t0) * k1 ^ 2 := by
      have h1 : |b * k1 * t| ≤ B * k1 * (t0 * k1) := by
        rw [abs_mul, abs_mul, abs_of_pos hk0]
        gcongr
      have h1' := abs_le.1 h1
      have e1 : (A + 2 * t0 ^ 2 + B * t0) * k1 ^ 2 = A * k1 ^ 2 + 2 * (t0 ^ 2 * k1 ^ 2) + B * k1 * (t0 * k1) := by ring
      have e2 : t * t = t ^ 2 := by ring
      have e3 : 0 ≤ t ^ 2 := sq_nonneg t
      have e4 : 0 ≤ A * k1 ^ 2 := mul_nonneg pA (sq_nonneg k1)
      rw [e1, e2, abs_le]
      constructor <;> linarith [h1'.1, h1'.2]
    calc |b * (k1 * k1) * (kk0R ⟨k1, k2, k3⟩ b - 2 * (t * t) + b * k1 * t)|
        ≤ B * (k1 * k1) * ((A + 2 * t0 ^ 2 + B * t0) * k1 ^ 2) := by
          rw [abs_mul, abs_mul, abs_of_pos (mul_pos hk0 hk0)]
          gcongr
      _ = c * (k1 ^ 2 * k1 ^ 2) := by rw [hc]; ring
      _ ≤ c * (kkR ⟨k1, k2, k3⟩ * sR ⟨k1, k2, k3⟩) := by gcongr
  have bc2 : |c2R ⟨k1, k2, k3⟩ b| ≤ R * A * Real.pi := by
    unfold c2R
    have hs32 : k1 ^ 2 ≤ sR ⟨k1, k2, k3⟩ ^ (3 / 2 : ℝ) := by
      calc k1 ^ 2 ≤ sR ⟨k1, k2, k3⟩ := bs
        _ = sR ⟨k1, k2, k3⟩ ^ (1 : ℝ) := (Real.rpow_one _).symm
        _ ≤ _ := Real.rpow_le_rpow_of_exponent_le (hk1'.trans bs) (by norm_num)
    have hsp : 0 < sR ⟨k1, k2, k3⟩ ^ (3 / 2 : ℝ) := Real.rpow_pos_of_pos (sR_pos hne) _
    rw [abs_mul, abs_div, abs_of_pos hsp, abs_mul, abs_of_nonneg p0]
    refine mul_le_mul ?_ (Complex.abs_arg_le_pi _) (abs_nonneg _) (by positivity)
    rw [div_le_iff₀ hsp]
    calc |k2| * kk0R ⟨k1, k2, k3⟩ b ≤ R * (A * k1 ^ 2) := by gcongr
      _ = R * A * k1 ^ 2 := by ring
      _ ≤ _ := by gcongr
  have hq : |k2 / k1| ≤ R := by
    rw [abs_div, abs_of_pos hk0, div_le_iff₀ hk0]
    nlinarith
  have hZ' : Z = c + R * A * Real.pi + R * c + R * (R * A * Real.pi) := by rw [hZ]; ring
  have pRA : 0 ≤ R * A * Real.pi := by positivity
  have b1 : |z1R ⟨k1, k2, k3⟩ b| ≤ Z := by
    unfold z1R
    refine (abs_sub _ _).trans ?_
    rw [abs_mul]
    have : |k2 / k1| * |c2R ⟨k1, k2, k3⟩ b| ≤ R * (R * A * Real.pi) := by gcongr
    have h4 : 0 ≤ R * c := by positivity
    simp only at this ⊢
    linarith
  have b2 : |z2R ⟨k1, k2, k3⟩ b| ≤ Z := by
    unfold z2R
    refine (abs_add_le _ _).trans ?_
    rw [abs_mul]
    have : |k2 / k1| * |c1R ⟨k1, k2, k3⟩ b| ≤ R * c := by gcongr
    have h4 : 0 ≤ R * (R * A * Real.pi) := by positivity
    simp only at this ⊢
    linarith
  have m : ∀ z C : ℝ, |z| ≤ C → 0 ≤ C → |z * k2| ≤ C * R * k1 ∧ |z * k1| ≤ C * k1 := by
    intro z C hz hC
    rw [abs_mul, abs_mul, abs_of_pos hk0]
    refine ⟨?_, by gcongr⟩
    calc |z| * |k2| ≤ C * R := by gcongr
      _ = C * R * 1 := by ring
      _ ≤ C * R * k1 := by gcongr
  obtain ⟨m11, m12⟩ := m _ _ b1 pZ
  obtain ⟨m21, m22⟩ := m _ _ b2 pZ
  obtain ⟨m31, m32⟩ := m _ _ b3 pA
  have hk2 : |k2| ≤ R * k1 := h2.trans (by nlinarith)
  have q1 : 0 ≤ t0 * k1 := by positivity
  have q2 : 0 ≤ Z * k1 := by positivity
  have q3 : 0 ≤ Z * R * k1 := by positivity
  have q4 : 0 ≤ R * k1 := by positivity
  have q5 : 0 ≤ A * R * k1 := by positivity
  have q6 : 0 ≤ A * k1 := by positivity
  have eG : (t0 + Z + Z * R + R + 1 + A * R + A) * k1 =
      t0 * k1 + Z * k1 + Z * R * k1 + R * k1 + k1 + A * R * k1 + A * k1 := by ring
  rw [eG]
  rw [abs_le] at m11 m12 m21 m22 m31 m32 hk2 ht
  simp only [kerR, zc_generic hne, ← htd]
  fin_cases i <;> fin_cases j <;> simp [-abs_mul, -abs_neg] <;> first
    | linarith
    | rw [abs_le]
      constructor <;> linarith [m11.1, m11.2, m12.1, m12.2, m21.1, m21.2, m22.1, m22.2, m31.1, m31.2, m32.1, m32.2, hk2.1,
        hk2.2, ht.1, ht.2]

theorem sheared_decay {R B C : ℝ} (hR : 0 ≤ R) (hB : 0 ≤ B) (hC : 0 ≤ C) : ∃ D, ∀ k1 ≥ 1, ∀ k2 k3 b : ℝ, |k2| ≤ R →
    |k3| ≤ R → |b| ≤ B → ∀ E : ℝ → ℝ, (∀ κ > 0, |E κ| ≤ C) → ∀ i j, |shearedTensor E ![k1, k2, k3] b i j| ≤ D / k1 ^ 2 := by
  obtain ⟨G, hG, h⟩ := ker_large hR hB
  refine ⟨C / (4 * Real.pi) * (3 * G ^ 2), fun k1 hk1 k2 k3 b h2 h3 hb E hE i j => ?_⟩
  have hk0 : (0:ℝ) < k1 := by linarith
  have hne : (⟨k1, k2, k3⟩ : K3).k1 ≠ 0 := hk0.ne'
  have ppi := Real.pi_pos
  have hk := h k1 hk1 k2 k3 b h2 h3 hb
  have e := shearedTensor_eq (k := ⟨k1, k2, k3⟩) (b := b) hne E i j
  have ev : K3.vec ⟨k1, k2, k3⟩ = ![k1, k2, k3] := rfl
  rw [ev] at e
  rw [e]
  have p0 := kk0R_pos (b := b) hne
  have b0 : k1 ^ 2 ≤ kk0R ⟨k1, k2, k3⟩ b := by
    show k1 ^ 2 ≤ k1 * k1 + k2 * k2 + _ * _
    nlinarith [mul_self_nonneg k2, mul_self_nonneg (k30R ⟨k1, k2, k3⟩ b)]
  have hs : |∑ m, kerR ⟨k1, k2, k3⟩ b i m * kerR ⟨k1, k2, k3⟩ b j m| ≤ 3 * G ^ 2 * k1 ^ 2 := by
    refine (Finset.abs_sum_le_sum_abs _ _).trans ?_
    have : ∀ m, |kerR ⟨k1, k2, k3⟩ b i m * kerR ⟨k1, k2, k3⟩ b j m| ≤ G * k1 * (G * k1) := by
      intro m
      rw [abs_mul]
      exact mul_le_mul (hk i m) (hk j m) (abs_nonneg _) (by positivity)
    refine (Finset.sum_le_sum fun m _ => this m).trans (le_of_eq ?_)
    simp
    ring
  have hE' := hE _ (Real.sqrt_pos.2 p0)
  rw [abs_mul, abs_div, abs_div, abs_of_pos (by positivity : 0 < 4 * Real.pi), abs_of_pos (mul_pos p0 p0)]
  calc |E (Real.sqrt (kk0R ⟨k1, k2, k3⟩ b))| / (4 * Real.pi) / (kk0R ⟨k1, k2, k3⟩ b * kk0R ⟨k1, k2, k3⟩ b) *
        |∑ m, kerR ⟨k1, k2, k3⟩ b i m * kerR ⟨k1, k2, k3⟩ b j m|
      ≤ C / (4 * Real.pi) / (k1 ^ 2 * k1 ^ 2) * (3 * G ^ 2 * k1 ^ 2) := by gcongr
    _ = C / (4 * Real.pi) * (3 * G ^ 2) / k1 ^ 2 := by field_simp

/-- The eddy lifetime stays bounded as the streamwise wavenumber grows, at every transverse wavevector. -/
def OPSParams.LifetimeBounded (p : OPSParams) : Prop :=
  ∀ k2 k3 : ℝ, ∃ B K : ℝ, ∀ k1 ≥ K, |(eddyLifetime p.hyp p.ty p.L p.T ⟨k1, k2, k3⟩).toReal| ≤ B

theorem fitTensor_decay (p : OPSParams) (hb : p.LifetimeBounded) (hs : p.sp.Bounded) (k2 k3 : ℝ) :
    ∃ D, ∀ᶠ k1 : ℝ in atTop, ∀ i j, |Spec.fitTensor p k1 k2 k3 i j| ≤ D / k1 ^ 2 := by
  obtain ⟨B, K, hB⟩ := hb k2 k3
  have pM := p.M_pos.le
  have pL := p.L_pos.le
  obtain ⟨D, hD⟩ := sheared_decay (R := max |k2| |k3|) (B := |B|) (C := p.M * p.L ^ (5 / 3 : ℝ))
    (le_max_of_le_left (abs_nonneg _)) (abs_nonneg _) (by positivity)
  refine ⟨D, ?_⟩
  filter_upwards [eventually_ge_atTop K, eventually_ge_atTop 1] with k1 h1 h2 i j
  refine hD k1 h2 k2 k3 _ (le_max_left _ _) (le_max_right _ _) ((hB k1 h1).trans (le_abs_self _)) _ (fun κ hκ => ?_) i j
  rw [abs_of_nonneg (energyOf_nonneg p.L_pos p.M_pos.le p.sp hκ.le)]
  exact energyOf_le p.L_pos p.M_pos.le hs hκ

theorem fitTensor_small (p : OPSParams) (hb : p.LifetimeBounded) (hs : p.sp.Bounded) (g : List ℝ) {e : ℝ} (he : 0 < e) :
    ∀ᶠ k1 : ℝ in atTop, ∀ k2 ∈ g, ∀ k3 ∈ g, ∀ i j, |Spec.fitTensor p k1 k2 k3 i j| ≤ e := by
  have key : ∀ k2 k3 : ℝ, ∀ᶠ k1 : ℝ in atTop, ∀ i j, |Spec.fitTensor p k1 k2 k3 i j| ≤ e := by
    intro k2 k3
    obtain ⟨D, hD⟩ := fitTensor_decay p hb hs k2 k3
    have ht : Tendsto (fun k1 : ℝ => D / k1 ^ 2) atTop (𝓝 0) :=
      tendsto_const_nhds.div_atTop (tendsto_pow_atTop two_ne_zero)
    filter_upwards [hD, ht.eventually (ge_mem_nhds he)] with k1 h1 h2 i j
    exact (h1 i j).trans h2
  have all : ∀ (l : List ℝ) (P : ℝ → ℝ → Prop), (∀ x, ∀ᶠ k1 in atTop, P k1 x) → ∀ᶠ k1 : ℝ in atTop, ∀ x ∈ l, P k1 x := by
    intro l P h
    induction l with
    | nil => simp
    | cons x l ih =>
      filter_upwards [ih, h x] with k1 h1 h2 y hy
      rcases List.mem_cons.1 hy with rfl | hy
      · exact h2
      · exact h1 y hy
  exact all g _ fun k2 => all g _ fun k3 => key k2 k3

/-- **C119** High end.  For every lifetime model with bounded lifetimes and every bounded energy spectrum there is a
wavenumber from which on the predicted uu, vv, ww, vw and uv spectra are exactly `10^-12 k1` times the area of the
integration domain, whatever the parameters: the prediction is the floor, it grows with `k1`, and it does not follow the
inertial-range law. -/
theorem C119_high (s : OPS) (hf : s.params.LifetimeFinite) (hb : s.params.LifetimeBounded) (hs : s.params.sp.Bounded) :
    ∃ K, ∀ (k1s : List ℝ) (i j : ℕ) (_ : i < 6) (_ : i ≠ 3) (hj : j < k1s.length), K ≤ k1s[j] →
      Spec.cell (OPS.forward k1s s).1 i j = k1s[j] * (1e-12 * gridWidth s.grid ^ 2) := by
  obtain ⟨K, hK⟩ := eventually_atTop.1 ((fitTensor_small s.params hb hs s.grid (e := 1e-12) (by norm_num)).and
    (eventually_gt_atTop 0))
  refine ⟨K, fun k1s i j hi h3 hj hk => ?_⟩
  obtain ⟨h1, h0⟩ := hK _ hk
  rw [forward_cell_floor k1s s hf hi h3 hj h0.ne']
  congr 1
  rw [quad23_congr (f' := fun _ _ => (1e-12:ℝ)) fun x hx y hy => max_eq_right ((le_abs_self _).trans (h1 x hx y hy _ _))]
  unfold quad23
  rw [trapz_const, trapz_const]
  ring

theorem forward_cell_uw (k1s : List ℝ) (s : OPS) (hp : s.params.LifetimeFinite) {j : ℕ} (hj : j < k1s.length)
    (hk : k1s[j] ≠ 0) (hg : s.grid.Pairwise (· ≤ ·)) {e : ℝ}
    (he : ∀ x ∈ s.grid, ∀ y ∈ s.grid, |Spec.fitTensor s.params k1s[j] x y 0 2| ≤ e) :
    |Spec.cell (OPS.forward k1s s).1 3 j| ≤ |k1s[j]| * ((1e-12 + e) * gridWidth s.grid ^ 2) := by
  have h36 : 3 < 6 := by omega
  rw [forward_cell k1s s h36 hj]
  choose y hy hy' using fun k2 k3 => opsPhi_spec s.params hp hk k2 k3
  have : (quad23 s.grid s.grid fun k2 k3 => (phiSelectors[3]'h36) (opsPhi s.params ⟨k1s[j], k2, k3⟩)) =
      fin (quad23 s.grid s.grid y) := by
    refine quad23_fin fun a _ b _ => ?_
    rw [hy' a b]
    rfl
  rw [this, fin_mul_fin, toReal_fin, abs_mul]
  refine mul_le_mul_of_nonneg_left ?_ (abs_nonneg _)
  have h := quad23_norm_le hg hg (f := y) (b := fun _ _ => 1e-12 + e) fun a ha b hb => by
    have h1 := hy a b
    have h2 := he a ha b hb
    rw [abs_le] at h1 h2
    rw [Real.norm_eq_abs, abs_le]
    constructor <;> linarith [h1.1, h1.2, h2.1, h2.2]
  rw [Real.norm_eq_abs] at h
  refine h.trans (le_of_eq ?_)
  unfold quad23
  rw [trapz_const, trapz_const]
  ring

/-- **C119** The uw spectrum at the high end: at most twice the floor in magnitude. -/
theorem C119_high_uw (s : OPS) (hf : s.params.LifetimeFinite) (hb : s.params.LifetimeBounded) (hs : s.params.sp.Bounded)
    (hg : s.grid.Pairwise (· ≤ ·)) :
    ∃ K, ∀ (k1s : List ℝ) (j : ℕ) (hj : j < k1s.length), K ≤ k1s[j] →
      |Spec.cell (OPS.forward k1s s).1 3 j| ≤ k1s[j] * (2e-12 * gridWidth s.grid ^ 2) := by
  obtain ⟨K, hK⟩ := eventually_atTop.1 ((fitTensor_small s.params hb hs s.grid (e := 1e-12) (by norm_num)).and
    (eventually_gt_atTop 0))
  refine ⟨K, fun k1s j hj hk => ?_⟩
  obtain ⟨h1, h0⟩ := hK _ hk
  have h := forward_cell_uw k1s s hf hj h0.ne' hg fun x hx y hy => h1 x hx y hy 0 2
  rw [abs_of_pos h0] at h
  refine h.trans (le_of_eq ?_)
  norm_num

/-! ### Bounded lifetimes -/

theorem le_vecNorm_k1 (k1 k2 k3 : ℝ) : k1 ≤ vecNorm [k1, k2, k3] := by
  rw [vecNorm_kkR ⟨k1, k2, k3⟩]
  refine Real.le_sqrt_of_sq_le ?_
  show k1 ^ 2 ≤ k1 * k1 + k2 * k2 + k3 * k3
  nlinarith [mul_self_nonneg k2, mul_self_nonneg k3]

/-- Output length of the network for direction `(1, y, z)`. -/
theorem tauNet_ray (net : TauNet) (hact : ∀ f ∈ net.activations, f = reluVec) {t : ℝ} (ht : 0 ≤ t) (y z : ℝ) :
    vecNorm (net.mlpForward [|t|, |t * y|, |t * z|]) = t * vecNorm (net.mlpForward [1, |y|, |z|]) := by
  have e : [|t|, |t * y|, |t * z|] = [1, |y|, |z|].map fun a => t * a := by simp [abs_mul, abs_of_nonneg ht]
  rw [e, C09_homogeneous net hact ht]
  generalize net.mlpForward [1, |y|, |z|] = v
  unfold vecNorm
  rw [← Real.sqrt_sq ht, ← Real.sqrt_mul (sq_nonneg t), Real.sqrt_sq ht]
  congr 1
  rw [List.map_map, ← List.sum_map_mul_left]
  congr 1
  apply List.map_congr_left
  intro a _
  simp
  ring

theorem tauNet_norm_atTop (net : TauNet) (hact : ∀ f ∈ net.activations, f = reluVec) (hn : net.Nondegenerate)
    (hc : net.ContActs) {L : ℝ} (hL : 0 < L) (k2 k3 : ℝ) :
    Tendsto (fun k1 : ℝ => vecNorm (net.mlpForward [|k1 * L|, |k2 * L|, |k3 * L|])) atTop atTop := by
  have hF : ContList fun q : ℝ × ℝ => [1, q.1, q.2].map fun t : ℝ => |t| :=
    ContList.map (F := fun q : ℝ × ℝ => [1, q.1, q.2])
      ⟨[fun _ => 1, fun q => q.1, fun q => q.2], by
        simp only [List.mem_cons, List.not_mem_nil, or_false]
        rintro f (rfl | rfl | rfl) <;> fun_prop, fun q => rfl⟩ continuous_abs
  have hm := (ContList.mlp hc hF).norm
  have h0 : 0 < vecNorm (net.mlpForward ([1, (0:ℝ), 0].map fun t => |t|)) :=
    lt_of_le_of_ne (vecNorm_nonneg _) (Ne.symm (hn 1 0 0 (by norm_num)))
  have hz : ∀ a : ℝ, Tendsto (fun k1 : ℝ => a / k1) atTop (𝓝 0) := fun a => tendsto_const_nhds.div_atTop tendsto_id
  have ht : Tendsto (fun k1 : ℝ => vecNorm (net.mlpForward ([1, k2 / k1, k3 / k1].map fun t => |t|))) atTop
      (𝓝 (vecNorm (net.mlpForward ([1, (0:ℝ), 0].map fun t => |t|)))) :=
    (hm.tendsto ((0, 0) : ℝ × ℝ)).comp ((hz k2).prodMk_nhds (hz k3))
  have hmul := Tendsto.atTop_mul_pos h0 (tendsto_id.atTop_mul_const hL) ht
  refine hmul.congr' ?_
  filter_upwards [eventually_gt_atTop 0] with k1 hk
  have := tauNet_ray net hact (t := k1 * L) (by positivity) (k2 / k1) (k3 / k1)
  rw [show k1 * L * (k2 / k1) = k2 * L by field_simp, show k1 * L * (k3 / k1) = k3 * L by field_simp] at this
  rw [this]
  simp

/-- **C119** Which lifetimes are bounded: constant, two-thirds, Mann, its linear approximation with a slope that is not
positive, and every non-degenerate ReLU network. -/
theorem C119_lifetimes (p : OPSParams)
    (h : match p.ty with
      | .mann => IsMannHyp p.hyp
      | .mannApprox c _ => c ≤ 0
      | .taunet net => (∀ f ∈ net.activations, f = reluVec) ∧ net.Nondegenerate
      | _ => True) : p.LifetimeBounded := by
  intro k2 k3
  suffices hB : ∃ B : ℝ, ∀ᶠ k1 : ℝ in atTop, |(eddyLifetime p.hyp p.ty p.L p.T ⟨k1, k2, k3⟩).toReal| ≤ B by
    obtain ⟨B, hB⟩ := hB
    obtain ⟨K, hK⟩ := eventually_atTop.1 hB
    exact ⟨B, K, hK⟩
  have hx : ∀ᶠ k1 : ℝ in atTop, 1 ≤ p.L * vecNorm [k1, k2, k3] := by
    filter_upwards [eventually_ge_atTop (1 / p.L)] with k1 hk
    have := (div_le_iff₀ p.L_pos).1 (hk.trans (le_vecNorm_k1 k1 k2 k3))
    linarith
  have hT := p.T_pos
  unfold eddyLifetime
  revert h
  cases p.ty with
  | const => intro _; exact ⟨|p.T * 1|, Eventually.of_forall fun k1 => le_refl |p.T * 1|⟩
  | mann =>
    intro h
    refine ⟨p.T * 2 ^ (17 / 12 : ℝ), ?_⟩
    filter_upwards [hx] with k1 h1
    obtain ⟨τ, e, h2, h3⟩ := C90_bounds h (lt_of_lt_of_le one_pos h1)
    have h0 : 0 < p.L * vecNorm [k1, k2, k3] := by linarith
    simp only [fin_mul_fin, e, toReal_fin]
    have hp : 0 < (p.L * vecNorm [k1, k2, k3]) ^ (-2 / 3 : ℝ) := Real.rpow_pos_of_pos h0 _
    rw [abs_of_pos (mul_pos hT (hp.trans_le h2))]
    refine mul_le_mul_of_nonneg_left (h3.trans ?_) hT.le
    calc _ ≤ 1 * (1 + 1 : ℝ) ^ (17 / 12 : ℝ) := by
          gcongr
          · exact Real.rpow_le_one_of_one_le_of_nonpos h1 (by norm_num)
          · exact Real.rpow_le_one_of_one_le_of_nonpos h1 (by norm_num)
      _ = _ := by norm_num
  | mannApprox c i =>
    intro hc
    refine ⟨p.T * Real.exp i, ?_⟩
    filter_upwards [hx] with k1 h1
    have h0 : 0 < p.L * vecNorm [k1, k2, k3] := by linarith
    simp only [fin_mul_fin, Mann_linear_exponential_approx, log_fin h0, fin_add_fin, exp_fin, toReal_fin]
    rw [abs_of_pos (mul_pos hT (Real.exp_pos _))]
    have := mul_nonpos_of_nonpos_of_nonneg hc (Real.log_nonneg h1)
    gcongr
    linarith
  | twothird =>
    intro _
    refine ⟨p.T, ?_⟩
    filter_upwards [hx] with k1 h1
    have h0 : 0 < p.L * vecNorm [k1, k2, k3] := by linarith
    simp only [fin_mul_fin, pow_fin _ h0, toReal_fin]
    rw [abs_of_pos (mul_pos hT (Real.rpow_pos_of_pos h0 _))]
    have := Real.rpow_le_one_of_one_le_of_nonpos h1 (z := (-2 / 3 : ℝ)) (by norm_num)
    nlinarith
  | taunet net =>
    rintro ⟨ha, hn⟩
    have hc : net.ContActs := fun φ hφ => ⟨fun x => max x 0, by fun_prop, by rw [ha φ hφ]; rfl⟩
    refine ⟨p.T * 2 ^ |net.nu / 2|, ?_⟩
    filter_upwards [(tauNet_norm_atTop net ha hn hc p.L_pos k2 k3).eventually_ge_atTop 1] with k1 h1
    set m := vecNorm (net.mlpForward [|k1 * p.L|, |k2 * p.L|, |k3 * p.L|]) with hm
    have h0 : 0 < m := by linarith
    have e : net.forward [k1 * p.L, k2 * p.L, k3 * p.L] = fin (m ^ (net.nu - 2 / 3) / (1 + m * m) ^ (net.nu / 2)) :=
      rational_pos _ h0
    simp only [e, fin_add_fin, fin_mul_fin, toReal_fin, zero_add]
    have h2 : 0 < 1 + m * m := by positivity
    have hq : 0 < m ^ (net.nu - 2 / 3) / (1 + m * m) ^ (net.nu / 2) :=
      div_pos (Real.rpow_pos_of_pos h0 _) (Real.rpow_pos_of_pos h2 _)
    rw [abs_of_pos (mul_pos hT hq)]
    refine mul_le_mul_of_nonneg_left ?_ hT.le
    have e1 : m ^ (net.nu - 2 / 3) / (1 + m * m) ^ (net.nu / 2) = m ^ (-2 / 3 : ℝ) * (m * m / (1 + m * m)) ^ (net.nu / 2) := by
      rw [Real.div_rpow (by positivity) h2.le, show m * m = m ^ (2:ℝ) by rw [Real.rpow_two]; ring, ← Real.rpow_mul h0.le,
        ← mul_div_assoc, ← Real.rpow_add h0]
      congr 2; ring
    rw [e1]
    have h3 : m ^ (-2 / 3 : ℝ) ≤ 1 := Real.rpow_le_one_of_one_le_of_nonpos h1 (by norm_num)
    have h4 : (1 / 2 : ℝ) ≤ m * m / (1 + m * m) := by
      rw [div_le_div_iff₀ two_pos h2]; nlinarith
    have h5 : m * m / (1 + m * m) ≤ 1 := (div_le_one h2).2 (by linarith)
    have h6 : (m * m / (1 + m * m)) ^ (net.nu / 2) ≤ 2 ^ |net.nu / 2| := by
      have hpos : 0 < m * m / (1 + m * m) := by positivity
      rcases le_total 0 (net.nu / 2) with h | h
      · exact (Real.rpow_le_one hpos.le h5 h).trans (Real.one_le_rpow one_le_two (abs_nonneg _))
      · rw [abs_of_nonpos h]
        calc (m * m / (1 + m * m)) ^ (net.nu / 2) ≤ (1 / 2 : ℝ) ^ (net.nu / 2) :=
              Real.rpow_le_rpow_of_nonpos (by norm_num) h4 h
          _ = 2 ^ (-(net.nu / 2)) := by
              rw [one_div, Real.inv_rpow two_pos.le, Real.rpow_neg two_pos.le]
    calc m ^ (-2 / 3 : ℝ) * (m * m / (1 + m * m)) ^ (net.nu / 2) ≤ 1 * 2 ^ |net.nu / 2| :=
          mul_le_mul h3 h6 (by positivity) one_pos.le
      _ = _ := one_mul _

/-! ### The low end -/

theorem energyOf_pos {L M : ℝ} (hL : 0 < L) (hM : 0 < M) (sp : SpectrumChoice) {κ : ℝ} (hκ : 0 < κ) :
    0 < Spec.energyOf L M sp κ := by
  cases sp with
  | vkLike => unfold Spec.energyOf vkE; positivity
  | learnable p q => unfold Spec.energyOf Spec.learnE; positivity

theorem fitTensor_33 (p : OPSParams) {k1 : ℝ} (hk : k1 ≠ 0) (k2 k3 : ℝ) :
    Spec.fitTensor p k1 k2 k3 2 2 = Spec.energyOf p.L p.M p.sp
      (Real.sqrt (kk0R ⟨k1, k2, k3⟩ (eddyLifetime p.hyp p.ty p.L p.T ⟨k1, k2, k3⟩).toReal)) / (4 * Real.pi) *
        (sR ⟨k1, k2, k3⟩ / kkR ⟨k1, k2, k3⟩ ^ 2) := by
  unfold Spec.fitTensor
  generalize (eddyLifetime p.hyp p.ty p.L p.T ⟨k1, k2, k3⟩).toReal = b
  have hne : (⟨k1, k2, k3⟩ : K3).k1 ≠ 0 := hk
  have e := shearedTensor_eq (k := ⟨k1, k2, k3⟩) (b := b) hne (Spec.energyOf p.L p.M p.sp) 2 2
  have ev : K3.vec ⟨k1, k2, k3⟩ = ![k1, k2, k3] := rfl
  rw [ev] at e
  rw [e]
  generalize Spec.energyOf p.L p.M p.sp (Real.sqrt (kk0R ⟨k1, k2, k3⟩ b)) / (4 * Real.pi) = w
  have h0 := (kk0R_pos (b := b) hne).ne'
  have h1 := (kkR_pos hne).ne'
  have es : sR ⟨k1, k2, k3⟩ = k1 * k1 + k2 * k2 := rfl
  simp only [kerR, zc_generic hne, Fin.sum_univ_three]
  simp [z3R]
  rw [es]
  field_simp
  ring

theorem trapz_node {g : List ℝ} (hg : g.Pairwise (· < ·)) (h2 : 2 ≤ g.length) {x : ℝ} (hx : x ∈ g) :
    ∃ w > 0, ∀ f : ℝ → ℝ, (∀ y ∈ g, 0 ≤ f y) → w * f x ≤ trapz g (g.map f) := by
  induction g with
  | nil => simp at hx
  | cons a l ih =>
    cases l with
    | nil => simp at h2
    | cons b l =>
      have hab : a < b := (List.pairwise_cons.1 hg).1 b (by simp)
      have hs := (List.pairwise_cons.1 hg).2
      have own : ∀ f : ℝ → ℝ, (∀ y ∈ a :: b :: l, 0 ≤ f y) →
          (b - a) / 2 * f a ≤ trapz (a :: b :: l) ((a :: b :: l).map f) ∧
          (b - a) / 2 * f b ≤ trapz (a :: b :: l) ((a :: b :: l).map f) := by
        intro f hf
        rw [trapz_cons2]
        have h1 := trapz_nonneg (hs.imp le_of_lt) (f := f) fun y hy => hf y (by simp [hy])
        have h2 := hf a (by simp)
        have h3 := hf b (by simp)
        have h4 : 0 ≤ (b - a) / 2 := by linarith
        rw [smul_eq_mul]
        constructor <;> nlinarith [mul_nonneg h4 h2, mul_nonneg h4 h3]
      rcases List.mem_cons.1 hx with rfl | hx
      · exact ⟨_, by linarith, fun f hf => (own f hf).1⟩
      · rcases List.mem_cons.1 hx with rfl | hx'
        · exact ⟨_, by linarith, fun f hf => (own f hf).2⟩
        · obtain ⟨w, hw, h⟩ := ih hs (by cases l with
            | nil => simp at hx'
            | cons c l => simp) hx
          refine ⟨w, hw, fun f hf => (h f fun y hy => hf y (by simp [hy])).trans ?_⟩
          rw [trapz_cons2]
          have h2 := hf a (by simp)
          have h3 := hf b (by simp)
          have h4 : 0 ≤ (b - a) / 2 := by linarith
          rw [smul_eq_mul]
          nlinarith [mul_nonneg h4 h2, mul_nonneg h4 h3]

theorem quad23_node {g : List ℝ} (hg : g.Pairwise (· < ·)) (h2 : 2 ≤ g.length) {x : ℝ} (hx : x ∈ g) :
    ∃ w > 0, ∀ f : ℝ → ℝ → ℝ, (∀ y ∈ g, ∀ z ∈ g, 0 ≤ f y z) → w * f x x ≤ quad23 g g f := by
  obtain ⟨w, hw, h⟩ := trapz_node hg h2 hx
  refine ⟨w * w, by positivity, fun f hf => ?_⟩
  unfold quad23
  have h1 := h (fun y => trapz g (g.map (f y))) fun y hy => trapz_nonneg (hg.imp le_of_lt) (hf y hy)
  have h3 := mul_le_mul_of_nonneg_left (h (f x) (hf x hx)) hw.le
  calc w * w * f x x = w * (w * f x x) := by ring
    _ ≤ _ := h3.trans h1

/-- **C119** Low end.  If the lifetime at `(k1, 0, 0)` grows like `1/k1` (the Mann model, a network with exponent `-1/3`), then
on every increasing integration grid that contains `0` the predicted ww spectrum exceeds a positive multiple of `1/k1` at all
small `k1`: it tends to infinity as `k1` falls. -/
theorem C119_low (s : OPS) (hf : s.params.LifetimeFinite) (hg : s.grid.Pairwise (· < ·)) (h2 : 2 ≤ s.grid.length)
    (h0 : (0:ℝ) ∈ s.grid) {c : ℝ} (hc : 0 < c)
    (hl : Tendsto (fun k1 : ℝ => k1 * (eddyLifetime s.params.hyp s.params.ty s.params.L s.params.T ⟨k1, 0, 0⟩).toReal) (𝓝[>] 0)
      (𝓝 c)) :
    ∃ w > 0, ∃ δ > 0, ∀ (k1s : List ℝ) (j : ℕ) (hj : j < k1s.length), 0 < k1s[j] → k1s[j] < δ →
      w / k1s[j] ≤ Spec.cell (OPS.forward k1s s).1 2 j := by
  set p := s.params with hp
  obtain ⟨w, hw, hq⟩ := quad23_node hg h2 h0
  set e := Spec.energyOf p.L p.M p.sp c with he
  have epos : 0 < e := energyOf_pos p.L_pos p.M_pos p.sp hc
  have hpi := Real.pi_pos
  have t1 : Tendsto (fun k1 : ℝ => Real.sqrt (kk0R ⟨k1, 0, 0⟩ (eddyLifetime p.hyp p.ty p.L p.T ⟨k1, 0, 0⟩).toReal))
      (𝓝[>] 0) (𝓝 c) := by
    have a1 : Tendsto (fun k1 : ℝ => k1) (𝓝[>] 0) (𝓝 0) := tendsto_id.mono_left nhdsWithin_le_nhds
    have a2 := ((a1.mul a1).add (hl.mul hl)).sqrt
    rw [show Real.sqrt (0 * 0 + c * c) = c by rw [mul_zero, zero_add, Real.sqrt_mul_self hc.le]] at a2
    refine a2.congr fun k1 => ?_
    congr 1
    show _ = k1 * k1 + 0 * 0 + (0 + _ * k1) * (0 + _ * k1)
    ring
  have t2 : Tendsto (fun k1 : ℝ => Spec.energyOf p.L p.M p.sp (Real.sqrt (kk0R ⟨k1, 0, 0⟩
      (eddyLifetime p.hyp p.ty p.L p.T ⟨k1, 0, 0⟩).toReal))) (𝓝[>] 0) (𝓝 e) :=
    ((energyOf_cont p.L_pos p.M p.sp).continuousAt (Ioi_mem_nhds hc)).tendsto.comp t1
  have ev := t2.eventually (le_mem_nhds (show e / 2 < e by linarith))
  rw [eventually_nhdsWithin_iff, Metric.eventually_nhds_iff] at ev
  obtain ⟨δ, hδ, hev⟩ := ev
  refine ⟨w * (e / 2 / (4 * Real.pi)), by positivity, δ, hδ, fun k1s j hj hpos hlt => ?_⟩
  have hE := hev (y := k1s[j]) (by rw [Real.dist_eq, sub_zero, abs_of_pos hpos]; exact hlt) hpos
  rw [forward_cell_floor k1s s hf (by omega) (by omega) hj hpos.ne']
  generalize k1s[j] = k1 at hpos hE
  have hn := hq (fun k2 k3 => max (Spec.fitTensor p k1 k2 k3 2 2) 1e-12) fun y _ z _ => le_max_of_le_right (by norm_num)
  have e33 : (Spec.rowEntry 2).1 = 2 ∧ (Spec.rowEntry 2).2 = 2 := ⟨rfl, rfl⟩
  rw [e33.1, e33.2]
  have hv : e / 2 / (4 * Real.pi) * (1 / k1 ^ 2) ≤ max (Spec.fitTensor p k1 0 0 2 2) 1e-12 := by
    refine le_max_of_le_left ?_
    rw [fitTensor_33 p hpos.ne']
    have e1 : sR ⟨k1, 0, 0⟩ / kkR ⟨k1, 0, 0⟩ ^ 2 = 1 / k1 ^ 2 := by
      show (k1 * k1 + 0 * 0) / (k1 * k1 + 0 * 0 + 0 * 0) ^ 2 = _
      field_simp
      ring
    rw [e1]
    gcongr
  calc w * (e / 2 / (4 * Real.pi)) / k1 = k1 * (w * (e / 2 / (4 * Real.pi) * (1 / k1 ^ 2))) := by field_simp
    _ ≤ k1 * (w * max (Spec.fitTensor p k1 0 0 2 2) 1e-12) := by gcongr
    _ ≤ _ := mul_le_mul_of_nonneg_left hn hpos.le

/-- **C119** The Mann lifetime and every ReLU network with exponent `-1/3` that does not send the streamwise direction to zero
satisfy the hypothesis of the previous theorem. -/
theorem C119_low_lifetimes (p : OPSParams)
    (h : match p.ty with
      | .mann => IsMannHyp p.hyp
      | .taunet net => (∀ f ∈ net.activations, f = reluVec) ∧ net.nu = -1 / 3 ∧ ∃ x ∈ net.mlpForward [1, 0, 0], x ≠ 0
      | _ => False) :
    ∃ c > 0, Tendsto (fun k1 : ℝ => k1 * (eddyLifetime p.hyp p.ty p.L p.T ⟨k1, 0, 0⟩).toReal) (𝓝[>] 0) (𝓝 c) := by
  have hL := p.L_pos
  have hT := p.T_pos
  have tL : Tendsto (fun k1 : ℝ => p.L * k1) (𝓝[>] 0) (𝓝[>] 0) := by
    refine tendsto_nhdsWithin_of_tendsto_nhds_of_eventually_within _ ?_ ?_
    · have : Tendsto (fun k1 : ℝ => p.L * k1) (𝓝 0) (𝓝 (p.L * 0)) := tendsto_id.const_mul _
      rw [mul_zero] at this
      exact this.mono_left nhdsWithin_le_nhds
    · filter_upwards [self_mem_nhdsWithin] with k1 hk
      exact mul_pos hL hk
  have hv : ∀ k1 : ℝ, 0 < k1 → vecNorm [k1, 0, 0] = k1 := by
    intro k1 hk
    rw [vecNorm_kkR ⟨k1, 0, 0⟩]
    show Real.sqrt (k1 * k1 + 0 * 0 + 0 * 0) = k1
    rw [mul_zero, add_zero, add_zero, Real.sqrt_mul_self hk.le]
  unfold eddyLifetime
  revert h
  cases p.ty with
  | const => intro h; exact h.elim
  | mannApprox c i => intro h; exact h.elim
  | twothird => intro h; exact h.elim
  | mann =>
    intro h
    obtain ⟨hI, hlim⟩ := C90_low h
    refine ⟨_, ?_, ((hlim.comp tL).const_mul (p.T / p.L)).congr' ?_⟩
    · have := Real.rpow_pos_of_pos (mul_pos (by norm_num : (0:ℝ) < 2 / 3) hI) (-1 / 2)
      positivity
    · filter_upwards [self_mem_nhdsWithin] with k1 hk
      have hk : 0 < k1 := hk
      simp only [hv k1 hk, fin_mul_fin, Function.comp, mannTau_eq h (mul_pos hL hk), toReal_fin]
      field_simp
  | taunet net =>
    rintro ⟨ha, hnu, hne⟩
    obtain ⟨a, hpos, -, hlim⟩ := C07_network net ha [1, 0, 0] (by simpa using hne)
    refine ⟨_, ?_, ((hlim.comp tL).const_mul (p.T / p.L)).congr' ?_⟩
    · have := Real.rpow_pos_of_pos hpos (net.nu - 2 / 3)
      positivity
    · filter_upwards [self_mem_nhdsWithin] with k1 hk
      have hk : 0 < k1 := hk
      have e : (2 / 3 - net.nu : ℝ) = 1 := by rw [hnu]; norm_num
      have e2 : ([1, 0, 0].map fun x : ℝ => p.L * k1 * x) = [k1 * p.L, 0 * p.L, 0 * p.L] := by
        simp; ring
      obtain ⟨r, -, hr⟩ := forward_fin net (k := [k1 * p.L, 0 * p.L, 0 * p.L]) (by
        have := tauNet_ray net ha (t := k1 * p.L) (by positivity) 0 0
        have hz : 0 < vecNorm (net.mlpForward [1, |0|, |0|]) := by
          have := (C06_positive net [1, 0, 0] (by simpa using hne)).1
          simpa using this
        have e3 : ([k1 * p.L, 0 * p.L, 0 * p.L].map fun t => |t|) = [|k1 * p.L|, |k1 * p.L * 0|, |k1 * p.L * 0|] := by simp
        rw [e3, this]
        positivity)
      simp only [Function.comp, e, Real.rpow_one, e2, hr, fin_add_fin, fin_mul_fin, toReal_fin, zero_add]
      field_simp

theorem square_mono {f h : ℝ → ℝ → ℝ} (hf : Continuous fun q : ℝ × ℝ => f q.1 q.2)
    (hh : Continuous fun q : ℝ × ℝ => h q.1 q.2) {a : ℝ} (ha : 0 ≤ a) (hle : ∀ x y, f x y ≤ h x y) :
    Spec.square a f ≤ Spec.square a h := by
  have haa : -a ≤ a := by linarith
  have inner : ∀ {f : ℝ → ℝ → ℝ}, Continuous (fun q : ℝ × ℝ => f q.1 q.2) → Continuous fun x => ∫ y in (-a)..a, f x y :=
    fun hf => intervalIntegral.continuous_parametric_intervalIntegral_of_continuous' hf (-a) a
  unfold Spec.square
  refine intervalIntegral.integral_mono_on haa ((inner hf).intervalIntegrable _ _) ((inner hh).intervalIntegrable _ _)
    fun x _ => ?_
  exact intervalIntegral.integral_mono_on haa ((hf.comp (Continuous.prodMk_right x)).intervalIntegrable _ _)
    ((hh.comp (Continuous.prodMk_right x)).intervalIntegrable _ _) fun y _ => hle x y

theorem integral_inv_sqrt {k a : ℝ} (hk : 0 < k) (ha : 0 < a) :
    ∫ x in (-a)..a, 1 / Real.sqrt (k ^ 2 + x ^ 2) = 2 * Real.arsinh (a / k) := by
  have hd : ∀ x : ℝ, HasDerivAt (fun x => Real.arsinh (x / k)) (1 / Real.sqrt (k ^ 2 + x ^ 2)) x := by
    intro x
    have h1 := (Real.hasDerivAt_arsinh (x / k)).comp x ((hasDerivAt_id x).div_const k)
    refine h1.congr_deriv ?_
    have e : k ^ 2 + x ^ 2 = k ^ 2 * (1 + (x / k) ^ 2) := by field_simp
    rw [e, Real.sqrt_mul (sq_nonneg k), Real.sqrt_sq hk.le]
    have : 0 < Real.sqrt (1 + (x / k) ^ 2) := Real.sqrt_pos.2 (by positivity)
    field_simp
  have hc : Continuous fun x : ℝ => 1 / Real.sqrt (k ^ 2 + x ^ 2) := by
    refine continuous_const.div (by fun_prop) fun x => (Real.sqrt_pos.2 ?_).ne'
    positivity
  rw [intervalIntegral.integral_eq_sub_of_hasDerivAt (fun x _ => hd x) (hc.intervalIntegrable _ _), neg_div,
    Real.arsinh_neg]
  ring

theorem arsinh_le {u : ℝ} (hu : 0 ≤ u) : Real.arsinh u ≤ 4 * (1 + 2 * u) ^ (1 / 4 : ℝ) := by
  have hs : Real.sqrt (1 + u ^ 2) ≤ 1 + u := by
    rw [Real.sqrt_le_left (by linarith)]; nlinarith
  have hp : 0 < u + Real.sqrt (1 + u ^ 2) := by
    have : 0 < Real.sqrt (1 + u ^ 2) := Real.sqrt_pos.2 (by positivity)
    linarith
  calc Real.arsinh u = Real.log (u + Real.sqrt (1 + u ^ 2)) := rfl
    _ ≤ Real.log (1 + 2 * u) := Real.log_le_log hp (by linarith)
    _ ≤ (1 + 2 * u) ^ (1 / 4 : ℝ) / (1 / 4) := Real.log_le_rpow_div (by linarith) (by norm_num)
    _ = _ := by ring

/-- **C119** What refinement of the grid converges to (the floored integral over the square of side `2a`, see C94) tends to
zero at the low end, for every lifetime model: the growth of `C119_low` comes from the fixed integration grid. -/
theorem C119_low_exact (p : OPSParams) (hc : p.LifetimeContinuous) (hs : p.sp.Bounded) {a : ℝ} (ha : 0 < a) :
    Tendsto (fun k1 : ℝ => k1 * Spec.square a fun k2 k3 => max (Spec.fitTensor p k1 k2 k3 2 2) 1e-12) (𝓝[>] 0) (𝓝 0) := by
  have hpi := Real.pi_pos
  have pM := p.M_pos
  have pL := p.L_pos
  set D := p.M * p.L ^ (5 / 3 : ℝ) / (4 * Real.pi) with hD
  have pD : 0 ≤ D := by positivity
  have up : ∀ k1 : ℝ, 0 < k1 → (k1 * Spec.square a fun k2 k3 => max (Spec.fitTensor p k1 k2 k3 2 2) 1e-12) ≤
      D * 64 * Real.sqrt (k1 * (k1 + 2 * a)) + k1 * (1e-12 * (2 * a) ^ 2) := by
    intro k1 hk
    have hb := (C94_floor_bias p hc hk.ne' ha.le 2).2
    set g : ℝ → ℝ := fun x => 1 / Real.sqrt (k1 ^ 2 + x ^ 2) with hg
    have gpos : ∀ x, 0 < k1 ^ 2 + x ^ 2 := fun x => by positivity
    have cg : Continuous g := continuous_const.div (by fun_prop) fun x => (Real.sqrt_pos.2 (gpos x)).ne'
    have hle : ∀ x y, Spec.fitTensor p k1 x y 2 2 ≤ D * (g x * g y) := by
      intro x y
      rw [fitTensor_33 p hk.ne']
      have hne : (⟨k1, x, y⟩ : K3).k1 ≠ 0 := hk.ne'
      have hE := energyOf_le pL pM.le hs (Real.sqrt_pos.2 (kk0R_pos (k := ⟨k1, x, y⟩)
        (b := (eddyLifetime p.hyp p.ty p.L p.T ⟨k1, x, y⟩).toReal) hne))
      have hq : sR ⟨k1, x, y⟩ / kkR ⟨k1, x, y⟩ ^ 2 ≤ g x * g y := by
        have ek : kkR ⟨k1, x, y⟩ = k1 ^ 2 + x ^ 2 + y ^ 2 := by show k1 * k1 + x * x + y * y = _; ring
        have es : sR ⟨k1, x, y⟩ = k1 ^ 2 + x ^ 2 := by show k1 * k1 + x * x = _; ring
        have kp : 0 < k1 ^ 2 + x ^ 2 + y ^ 2 := by positivity
        have e : g x * g y = 1 / Real.sqrt ((k1 ^ 2 + x ^ 2) * (k1 ^ 2 + y ^ 2)) := by
          simp only [hg]
          rw [Real.sqrt_mul (gpos x).le]
          ring
        rw [ek, es, e]
        calc (k1 ^ 2 + x ^ 2) / (k1 ^ 2 + x ^ 2 + y ^ 2) ^ 2 ≤ (k1 ^ 2 + x ^ 2 + y ^ 2) / (k1 ^ 2 + x ^ 2 + y ^ 2) ^ 2 := by
              refine div_le_div_of_nonneg_right ?_ (sq_nonneg _)
              nlinarith [sq_nonneg y]
          _ = 1 / (k1 ^ 2 + x ^ 2 + y ^ 2) := by field_simp
          _ ≤ _ := by
              refine one_div_le_one_div_of_le (Real.sqrt_pos.2 (mul_pos (gpos x) (gpos y))) ?_
              rw [Real.sqrt_le_left kp.le]
              nlinarith [mul_nonneg (sq_nonneg k1) (sq_nonneg x), mul_nonneg (sq_nonneg k1) (sq_nonneg y),
                mul_nonneg (sq_nonneg x) (sq_nonneg y), sq_nonneg (x ^ 2), sq_nonneg (y ^ 2)]
      have hs0 : 0 ≤ sR ⟨k1, x, y⟩ / kkR ⟨k1, x, y⟩ ^ 2 := div_nonneg (sR_pos hne).le (sq_nonneg _)
      rw [hD]
      refine mul_le_mul ?_ hq hs0 (by positivity)
      gcongr
    have hm := square_mono (fitTensor_cont p hc hk.ne' 2 2) (h := fun x y => D * (g x * g y)) (by fun_prop) ha.le hle
    have hI : Spec.square a (fun x y => D * (g x * g y)) = D * (2 * Real.arsinh (a / k1)) ^ 2 := by
      unfold Spec.square
      simp only [intervalIntegral.integral_const_mul, intervalIntegral.integral_mul_const]
      rw [show (∫ x in (-a)..a, g x) = 2 * Real.arsinh (a / k1) from integral_inv_sqrt hk ha]
      ring
    have hA : k1 * (2 * Real.arsinh (a / k1)) ^ 2 ≤ 64 * Real.sqrt (k1 * (k1 + 2 * a)) := by
      have h1 := arsinh_le (u := a / k1) (by positivity)
      have h0 : 0 ≤ Real.arsinh (a / k1) := Real.arsinh_nonneg_iff.2 (by positivity)
      have e1 : ((1 + 2 * (a / k1)) ^ (1 / 4 : ℝ)) ^ 2 = Real.sqrt (1 + 2 * (a / k1)) := by
        rw [Real.sqrt_eq_rpow, ← Real.rpow_natCast, ← Real.rpow_mul (by positivity)]
        norm_num
      calc k1 * (2 * Real.arsinh (a / k1)) ^ 2 ≤ k1 * (2 * (4 * (1 + 2 * (a / k1)) ^ (1 / 4 : ℝ))) ^ 2 := by gcongr
        _ = 64 * (k1 * ((1 + 2 * (a / k1)) ^ (1 / 4 : ℝ)) ^ 2) := by ring
        _ = 64 * Real.sqrt (k1 * (k1 + 2 * a)) := by
            rw [e1, show k1 * (k1 + 2 * a) = k1 ^ 2 * (1 + 2 * (a / k1)) by field_simp, Real.sqrt_mul (sq_nonneg k1),
              Real.sqrt_sq hk.le]
    have h5 : (Spec.square a fun k2 k3 => max (Spec.fitTensor p k1 k2 k3 2 2) 1e-12) ≤
        D * (2 * Real.arsinh (a / k1)) ^ 2 + 1e-12 * (2 * a) ^ 2 := by rw [hI] at hm; linarith
    calc _ ≤ k1 * (D * (2 * Real.arsinh (a / k1)) ^ 2 + 1e-12 * (2 * a) ^ 2) := mul_le_mul_of_nonneg_left h5 hk.le
      _ = D * (k1 * (2 * Real.arsinh (a / k1)) ^ 2) + k1 * (1e-12 * (2 * a) ^ 2) := by ring
      _ ≤ D * (64 * Real.sqrt (k1 * (k1 + 2 * a))) + k1 * (1e-12 * (2 * a) ^ 2) := by gcongr
      _ = _ := by ring
  have lim : Tendsto (fun k1 : ℝ => D * 64 * Real.sqrt (k1 * (k1 + 2 * a)) + k1 * (1e-12 * (2 * a) ^ 2)) (𝓝[>] 0) (𝓝 0) := by
    have hcont : Continuous fun k1 : ℝ => D * 64 * Real.sqrt (k1 * (k1 + 2 * a)) + k1 * (1e-12 * (2 * a) ^ 2) := by fun_prop
    have := hcont.tendsto 0
    simp only [zero_mul, Real.sqrt_zero, mul_zero, add_zero] at this
    exact this.mono_left nhdsWithin_le_nhds
  refine tendsto_of_tendsto_of_tendsto_of_le_of_le' tendsto_const_nhds lim ?_ ?_
  · filter_upwards [self_mem_nhdsWithin] with k1 hk
    have hk : 0 < k1 := hk
    refine mul_nonneg hk.le ?_
    have haa : -a ≤ a := by linarith
    exact intervalIntegral.integral_nonneg haa fun x _ => intervalIntegral.integral_nonneg haa fun y _ =>
      le_max_of_le_right (by norm_num)
  · filter_upwards [self_mem_nhdsWithin] with k1 hk
    exact up k1 hk

/-- **C119** The Mann model on the integration grids the constructor builds: from some wavenumber on the predictions are
`4 · 10^-12 · 10^(2 p2) k1`; the ww prediction tends to infinity as `k1` falls to zero; the integral it approximates tends to
zero there. -/
theorem C119_mann (s : OPS) (hy : IsMannHyp s.hyp) (hk : s.kind = .mann) (hs : s.sp = .vkLike) {p1 p2 : ℝ} (hp : p1 < p2)
    {n : ℕ} (hn : 2 ≤ n) (hg : s.grid = opsGrid p1 p2 n) :
    (∃ K, ∀ k1 ≥ K, ∀ i < 6, i ≠ 3 → Spec.cell (OPS.forward [k1] s).1 i 0 = k1 * (4e-12 * ((10:ℝ) ^ p2) ^ 2)) ∧
    Tendsto (fun k1 : ℝ => Spec.cell (OPS.forward [k1] s).1 2 0) (𝓝[>] 0) atTop ∧
    Tendsto (fun k1 : ℝ => k1 * Spec.square ((10:ℝ) ^ p2) fun k2 k3 => max (Spec.fitTensor s.params k1 k2 k3 2 2) 1e-12)
      (𝓝[>] 0) (𝓝 0) := by
  have ht : s.params.ty = .mann := by simp [OPS.params, OPS.ty, OPS.initApprox, hk]
  have hy' : IsMannHyp s.params.hyp := hy
  have hsp : s.params.sp.Bounded := by
    have : s.params.sp = .vkLike := hs
    rw [this]; trivial
  have hc : s.params.LifetimeContinuous := lifetimeContinuous_of _ (by rw [ht]; exact hy')
  have hf := lifetimeFinite_of_continuous hc
  have hb : s.params.LifetimeBounded := C119_lifetimes _ (by rw [ht]; exact hy')
  have hw : gridWidth s.grid = 2 * (10:ℝ) ^ p2 := by
    unfold gridWidth
    rw [hg, (opsGrid_ends hn).1, (opsGrid_ends hn).2]
    ring
  have hsort : s.grid.Pairwise (· < ·) := hg ▸ opsGrid_sorted hp n
  refine ⟨?_, ?_, C119_low_exact s.params hc hsp (Real.rpow_pos_of_pos (by norm_num) _)⟩
  · obtain ⟨K, h⟩ := C119_high s hf hb hsp
    refine ⟨K, fun k1 h1 i hi h3 => ?_⟩
    have := h [k1] i 0 hi h3 (by simp) h1
    rw [this, hw, List.getElem_cons_zero]
    ring
  · obtain ⟨c, hc0, hl⟩ := C119_low_lifetimes s.params (by rw [ht]; exact hy')
    obtain ⟨w, hw0, δ, hδ, h⟩ := C119_low s hf hsort (by rw [hg, opsGrid_length]; omega)
      (by rw [hg]; exact C24_grid p1 p2 n) hc0 hl
    have hinv : Tendsto (fun k1 : ℝ => w / k1) (𝓝[>] 0) atTop := by
      simp only [div_eq_mul_inv]
      exact tendsto_inv_nhdsGT_zero.const_mul_atTop hw0
    refine tendsto_atTop_mono' _ ?_ hinv
    filter_upwards [Ioo_mem_nhdsGT hδ] with k1 h1
    exact h [k1] 0 (by simp) h1.1 h1.2

/-- The hypotheses of `C119_mann` are met by the object the constructor returns for the Mann model with default options. -/
example : ∃ hyp s, OPS.init hyp .mann .vkLike 1 1 1 (-3) 3 100 none = .ok s ∧ IsMannHyp s.hyp ∧ s.kind = .mann ∧
    s.sp = .vkLike ∧ s.grid = opsGrid (-3) 3 100 := by
  obtain ⟨hyp, h⟩ := exists_isMannHyp
  exact ⟨hyp, _, if_pos ⟨one_pos, one_pos, one_pos⟩, h, rfl, rfl, rfl⟩

end
end Verif
