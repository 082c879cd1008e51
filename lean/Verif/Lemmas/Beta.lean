import Verif.Lemmas.Tensor
import Verif.Model.OnePoint

/-! The eddy lifetimes entering the kernels. -/

namespace Verif
open Fl

noncomputable section

theorem kkR_pow (k : K3) : k.k1 ^ 2 + k.k2 ^ 2 + k.k3 ^ 2 = kkR k := by unfold kkR; ring

/-- Value of the Mann eddy lifetime in the generator. -/
theorem mannBeta_eq {hyp : ℝ → ℝ} {L : ℝ} (G : ℝ) (hL : 0 < L) (hh : ∀ x < 0, 0 < hyp x) (k : K3) :
    mannBeta hyp L G k = fin (if kkR k = 0 then 0 else
      G * (kkR k * L ^ 2) ^ (-1 / 3 : ℝ) / Real.sqrt (hyp (-1 / (kkR k * L ^ 2)))) := by
  unfold mannBeta
  rw [kkR_pow]
  by_cases h : kkR k = 0
  · simp [h]
  · have hk : 0 < kkR k := lt_of_le_of_ne (kkR_nonneg k) (Ne.symm h)
    have hq : 0 < kkR k * L ^ 2 := by positivity
    have hneg : -1 / (kkR k * L ^ 2) < 0 := div_neg_of_neg_of_pos (by norm_num) hq
    have h3 := Real.sqrt_pos.2 (hh _ hneg)
    simp only [h, if_false, fin_mul_fin, fin_div_fin _ hq.ne', pow_fin _ hq, liftR, sqrt_fin (hh _ hneg).le,
      fin_div_fin _ h3.ne']

theorem mannBeta_neg {hyp : ℝ → ℝ} {L : ℝ} (G : ℝ) (k : K3) : mannBeta hyp L G k.neg = mannBeta hyp L G k := by
  simp [mannBeta, K3.neg]

/-- Rational kernel at a positive argument. -/
theorem rational_pos (nu : ℝ) {x : ℝ} (hx : 0 < x) :
    rational nu (fin x) = fin (x ^ (nu - 2 / 3) / (1 + x * x) ^ (nu / 2)) := by
  have h1 : 0 < 1 + x * x := by positivity
  unfold rational
  simp only [abs_fin, abs_of_pos hx, one_def, fin_mul_fin, fin_add_fin, pow_fin _ hx, pow_fin _ h1,
    fin_div_fin _ (Real.rpow_pos_of_pos h1 _).ne']

theorem vecNorm_nonneg (x : List ℝ) : 0 ≤ vecNorm x := Real.sqrt_nonneg _

/-- The network never maps a non-zero wavevector to the zero augmented wavevector. -/
def TauNet.Nondegenerate (net : TauNet) : Prop :=
  ∀ x y z : ℝ, ¬ (x = 0 ∧ y = 0 ∧ z = 0) → vecNorm (net.mlpForward [|x|, |y|, |z|]) ≠ 0

theorem forward_fin (net : TauNet) {k : List ℝ} (h : vecNorm (net.mlpForward (k.map fun t => |t|)) ≠ 0) :
    ∃ r, 0 < r ∧ net.forward k = fin r := by
  have hp := lt_of_le_of_ne (vecNorm_nonneg _) (Ne.symm h)
  have h1 : 0 < 1 + vecNorm (net.mlpForward (k.map fun t => |t|)) * vecNorm (net.mlpForward (k.map fun t => |t|)) := by
    positivity
  exact ⟨_, div_pos (Real.rpow_pos_of_pos hp _) (Real.rpow_pos_of_pos h1 _), rational_pos _ hp⟩

theorem nnBeta_fin {net : TauNet} (hn : net.Nondegenerate) (G : ℝ) {h : ℝ} (hh : h ≠ 0) (k : K3) :
    ∃ b, nnBeta net G h k = fin b := by
  unfold nnBeta
  split_ifs with h0
  · exact ⟨0, rfl⟩
  · have hne : ¬ (k.k1 * h = 0 ∧ k.k2 * h = 0 ∧ k.k3 * h = 0) := by
      rintro ⟨h1, h2, h3⟩
      have h1 := (mul_eq_zero.1 h1).resolve_right hh
      have h2 := (mul_eq_zero.1 h2).resolve_right hh
      have h3 := (mul_eq_zero.1 h3).resolve_right hh
      exact h0 (by simp [h1, h2, h3])
    obtain ⟨r, -, hr⟩ := forward_fin net (k := [k.k1 * h, k.k2 * h, k.k3 * h]) (hn _ _ _ hne)
    exact ⟨G * r, by simp [hr]⟩

theorem nnBeta_zero {net : TauNet} (G h : ℝ) {k : K3} (hk : kkR k = 0) : nnBeta net G h k = fin 0 := by
  unfold nnBeta; rw [kkR_pow]; simp [hk]

theorem forward_abs (net : TauNet) (k k' : List ℝ) (h : k.map (fun t => |t|) = k'.map (fun t => |t|)) :
    net.forward k = net.forward k' := by
  unfold TauNet.forward; rw [h]

theorem nnBeta_neg (net : TauNet) (G h : ℝ) (k : K3) : nnBeta net G h k.neg = nnBeta net G h k := by
  unfold nnBeta
  rw [forward_abs net [k.neg.k1 * h, k.neg.k2 * h, k.neg.k3 * h] [k.k1 * h, k.k2 * h, k.k3 * h]
    (by simp [K3.neg])]
  simp [K3.neg]

theorem kkR_neg (k : K3) : kkR k.neg = kkR k := by simp [kkR, K3.neg]
theorem sR_neg (k : K3) : sR k.neg = sR k := by simp [sR, K3.neg]
theorem k30R_neg (k : K3) (b : ℝ) : k30R k.neg b = -k30R k b := by simp [k30R, K3.neg]; ring
theorem kk0R_neg (k : K3) (b : ℝ) : kk0R k.neg b = kk0R k b := by
  unfold kk0R; rw [k30R_neg]; simp [K3.neg]

theorem atR_slit {k : K3} (h : k.k1 ≠ 0) (b : ℝ) :
    (⟨kk0R k b - k30R k b * k.k1 * b, b * k.k1 * Real.sqrt (sR k)⟩ : ℂ) ∈ Complex.slitPlane :=
  atPath_slit h k.k2 (k30R k b) b

theorem arg_conj_slit {z : ℂ} (h : z ∈ Complex.slitPlane) :
    Complex.arg ⟨z.re, -z.im⟩ = -Complex.arg z := by
  have : (⟨z.re, -z.im⟩ : ℂ) = (starRingEnd ℂ) z := by apply Complex.ext <;> simp
  rw [this, Complex.arg_conj, if_neg (Complex.slitPlane_arg_ne_pi h)]

theorem atR_neg {k : K3} (h : k.k1 ≠ 0) (b : ℝ) : atR k.neg b = -atR k b := by
  unfold atR
  rw [kk0R_neg, k30R_neg, sR_neg, ← arg_conj_slit (atR_slit h b)]
  simp [K3.neg]

theorem zc_neg (k : K3) (b : ℝ) : zc k.neg b = zc k b := by
  by_cases hk : kkR k = 0
  · rw [zc_zero hk, zc_zero (by rw [kkR_neg]; exact hk)]
  by_cases h1 : k.k1 = 0
  · rw [zc_k1_zero h1 hk, zc_k1_zero (by simp [K3.neg, h1]) (by rw [kkR_neg]; exact hk)]
  have h1' : k.neg.k1 ≠ 0 := by simpa [K3.neg] using h1
  have hc2 : c2R k.neg b = c2R k b := by
    unfold c2R
    rw [kk0R_neg, sR_neg, atR_neg h1]
    simp [K3.neg]
    ring
  have hc1 : c1R k.neg b = c1R k b := by
    unfold c1R
    rw [kk0R_neg, sR_neg, k30R_neg, kkR_neg]
    simp [K3.neg]
  rw [zc_generic h1, zc_generic h1']
  unfold z1R z2R z3R
  rw [hc1, hc2, kk0R_neg, kkR_neg]
  simp [K3.neg]

theorem kerR_neg (k : K3) (b : ℝ) (i j : Fin 3) : kerR k.neg b i j = -kerR k b i j := by
  unfold kerR
  rw [zc_neg, k30R_neg]
  fin_cases i <;> fin_cases j <;> simp [K3.neg] <;> ring

/-- The columns of the kernel are orthogonal to the wavevector. -/
theorem kerR_div (k : K3) (b : ℝ) (j : Fin 3) :
    k.k1 * kerR k b 0 j + k.k2 * kerR k b 1 j + k.k3 * kerR k b 2 j = 0 := by
  have key : kkR k = 0 ∨ k.k1 * (zc k b).1 + k.k2 * (zc k b).2.1 + k.k3 * (zc k b).2.2 = k30R k b := by
    by_cases hk : kkR k = 0
    · exact Or.inl hk
    right
    by_cases h1 : k.k1 = 0
    · rw [zc_k1_zero h1 hk]; simp [h1, k30R]
    · rw [zc_generic h1]
      have hs := (sR_pos h1).ne'
      have hkp := (kkR_pos h1).ne'
      have e1 : k.k1 * z1R k b + k.k2 * z2R k b = sR k / k.k1 * c1R k b := by
        unfold z1R z2R sR
        field_simp
        ring
      simp only
      rw [e1]
      unfold c1R z3R
      field_simp
      unfold kk0R k30R kkR
      ring
  rcases key with hk | key
  · obtain ⟨h1, h2, h3⟩ := kkR_eq_zero hk
    simp [h1, h2, h3]
  · unfold kerR
    fin_cases j
    · simp; linear_combination (-k.k2) * key
    · simp; linear_combination k.k1 * key
    · simp; ring

end
end Verif
