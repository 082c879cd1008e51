import Verif.Props.RoundingTotal
import Verif.Props.RoundingTensor

/-!
# The rounded models in exact arithmetic

The models of `Model/Rounded.lean`, `Model/RoundedShear.lean` and `Model/RoundedLoss.lean`, with exact operations, are the models whose
properties the other files state (C136, C138, C143, C146).  `C144_exact`, `C148_exact`, `C149_exact`, `C150_exact` and `C152_exact`
say the same of the other rounded models.
-/

namespace Verif
open Fl Fmt Spec

noncomputable section

theorem exactF_e : Fmt.exact.e = 0 := by simp [Fmt.e, Fmt.exact]

theorem eq_of_rel {x y c : ℝ} (h : |y - x| ≤ (Real.exp 0 - 1) * c) : y = x := by
  rw [Real.exp_zero, sub_self, zero_mul] at h
  exact sub_eq_zero.1 (abs_eq_zero.1 (le_antisymm h (abs_nonneg _)))

/-- **C136** In exact arithmetic the rounded energy spectra and the rounded von Karman kernel are those of the model. -/
theorem C136_exact :
    (∀ x p q : ℝ, 0 < x → VKEnergySpectrum (fin x) = fin (Fmt.exact.vkEnergy x) ∧
      VKLike_EnergySpectrum (fin x) = fin (Fmt.exact.vkLike x) ∧ Learnable_EnergySpectrum (fin x) p q = fin (Fmt.exact.learnable x p q)) ∧
    ∀ (L E0 : ℝ) (k : K3) (i j : Fin 3), 0 < L → 0 ≤ E0 → vkKernel L E0 k i j = fin (Fmt.exact.vkMat L E0 k i j) := by
  constructor
  · intro x p q hx
    obtain ⟨y1, y2, y3, -, -, -, h1, h2, h3, g1, g2, g3⟩ :=
      C136_energy Fmt.exact (by rw [exactF_e]; norm_num) hx (le_refl |Real.log x|) p q
    rw [exactF_e, mul_zero] at g1 g2 g3
    rw [h1, h2, h3, eq_of_rel g1, eq_of_rel g2, eq_of_rel g3]
    exact ⟨rfl, rfl, rfl⟩
  · intro L E0 k i j hL hE
    obtain ⟨h, -⟩ := C136_kernel Fmt.exact (by rw [exactF_e]; norm_num) hL hE k (le_max_left |Real.log L| _) (le_max_right _ _)
    obtain ⟨x, hx, g⟩ := h i j
    rw [exactF_e, mul_zero] at g
    rw [hx, eq_of_rel g]

/-- **C138** In exact arithmetic the rounded block, with the rounded mean wind, is the block that `_normalize_block` returns. -/
theorem C138_exact (g : Gen) (n1 n2 : ℕ) (f : ℕ → ℕ → ℕ → Fin 3 → ℝ) (p : ProfileArgs) {sd : ℝ} {d : ℕ}
    (h : Fmt.exact.SdOf (Arr.ofFn n1 n2 g.Nz f).flat sd d) {r : Arr Fl} (hr : g.normalizeBlock (Arr.ofFn n1 n2 g.Nz f) p = .ok r)
    {a b c : ℕ} (ha : a < n1) (hb : b < n2) (hc : c < g.Nz) (hc0 : 0 < c) (hd : 0 < g.d3) (hz : 0 < p.zref) (hu : 0 < p.uref)
    (h0 : p.ptype = "LOG" → 0 < p.z0 ∧ p.z0 < p.zref) :
    ∃ w, r.val? a b c = some w ∧ (∀ i, i ≠ 0 → w i = fin (Fmt.exact.add (Fmt.exact.div (f a b c i) sd) 0)) ∧
      w 0 = fin (Fmt.exact.add (Fmt.exact.div (f a b c 0) sd)
        (if p.ptype = "LOG" then Fmt.exact.logLaw (c * (g.d3 / 2 ^ g.l3)) p.z0 p.zref p.uref
          else Fmt.exact.powerLaw (c * (g.d3 / 2 ^ g.l3)) p.zref p.uref (p.plexp.getD 0))) := by
  obtain ⟨w, hw, h1, h2⟩ := C138_returned Fmt.exact g n1 n2 f p h hr ha hb hc
  have hcp : (0 : ℝ) < c := Nat.cast_pos.2 hc0
  have hzp : 0 < (c : ℝ) * (g.d3 / 2 ^ g.l3) := by positivity
  refine ⟨w, hw, fun i hi => ?_, ?_⟩
  · obtain ⟨y, hy, q⟩ := h1 i hi
    rw [exactF_e, mul_zero] at q
    rw [hy, eq_of_rel q]
  · obtain ⟨U, hU⟩ : ∃ U, U = if p.ptype = "LOG" then Fmt.exact.logLaw (c * (g.d3 / 2 ^ g.l3)) p.z0 p.zref p.uref
          else Fmt.exact.powerLaw (c * (g.d3 / 2 ^ g.l3)) p.zref p.uref (p.plexp.getD 0) := ⟨_, rfl⟩
    have e : (if p.ptype = "LOG" then Verif.logLaw (c * (g.d3 / 2 ^ g.l3)) p.z0 p.zref p.uref
          else Verif.powerLaw (c * (g.d3 / 2 ^ g.l3)) p.zref p.uref (p.plexp.getD 0)) = fin U := by
      rw [hU]
      by_cases hl : p.ptype = "LOG"
      · simp only [hl, ↓reduceIte]
        obtain ⟨z1, z2⟩ := h0 hl
        have D0 := Real.log_pos ((one_lt_div z1).2 z2)
        obtain ⟨y, hy, -, q⟩ := C138_log Fmt.exact hzp.le z1 z2 hu (by rw [exactF_e, mul_zero]; exact D0.le)
        rw [exactF_e, mul_zero, mul_zero, mul_zero, zero_add] at q
        rw [hy, eq_of_rel q]
      · simp only [hl, ↓reduceIte]
        obtain ⟨y, -, hy, q⟩ := C138_power Fmt.exact hzp hz hu (p.plexp.getD 0)
        rw [exactF_e, mul_zero] at q
        rw [hy, eq_of_rel q]
    obtain ⟨y, hy, q⟩ := h2 U U 0 e (by simp)
    rw [← hU, hy]
    rw [exactF_e, mul_zero, Real.exp_zero, sub_self] at q
    simp only [zero_mul, add_zero, mul_zero] at q
    rw [sub_eq_zero.1 (abs_eq_zero.1 (le_antisymm q (abs_nonneg _)))]

/-- **C143** In exact arithmetic the rounded sheared kernel, for every lifetime and in particular for Mann's, is that of the model. -/
theorem C143_exact {L E0 : ℝ} (hL : 0 < L) (hE : 0 ≤ E0) (k : K3) :
    (∀ b i j, shearKernel L E0 k (fin b) i j = fin (ShearFmt.exact.shear L E0 k b i j)) ∧
    ∀ hyp, IsMannHyp hyp → ∀ Gamma, k.vec ≠ 0 → mannBeta hyp L Gamma k = fin (ShearFmt.exact.mannBeta hyp L Gamma k) ∧
      ∀ i j, mannKernel hyp L E0 Gamma k i j = fin (ShearFmt.exact.shear L E0 k (ShearFmt.exact.mannBeta hyp L Gamma k) i j) := by
  have ker : ∀ b i j, shearKernel L E0 k (fin b) i j = fin (ShearFmt.exact.shear L E0 k b i j) := by
    intro b i j
    obtain ⟨G, hG, h⟩ := C143_kernel ShearFmt.exact hL hE k (LogNear.refl b) (by rw [exactS_e]; simp)
      (le_max_left |Real.log L| _) (le_max_right _ _)
    have := h i j
    rw [exactS_e] at this
    simp only [mul_zero, add_zero, Real.exp_zero, sub_self, zero_mul] at this
    rw [hG, sub_eq_zero.1 (abs_eq_zero.1 (le_antisymm this (abs_nonneg _)))]
  refine ⟨ker, fun hyp hy Gamma hk => ?_⟩
  have hb : mannBeta hyp L Gamma k = fin (ShearFmt.exact.mannBeta hyp L Gamma k) := by
    obtain ⟨b, hb, hn⟩ := C143_lifetime ShearFmt.exact (by rw [exactS_e]; norm_num) hy (w := 0) (fun z _ => LogNear.refl _)
      (Gamma := Gamma) hL hk le_rfl
    rw [exactS_e, mul_zero, add_zero] at hn
    have := hn.sub_le
    rw [mul_comm] at this
    rw [hb, eq_of_rel this]
  refine ⟨hb, fun i j => ?_⟩
  unfold mannKernel
  rw [hb]
  exact ker _ i j

/-- The logarithmic steps of an ascending grid have a positive lower bound. -/
theorem exists_step {n : ℕ} {k : ℕ → ℝ} (hk : Ascending n k) : ∃ h > 0, ∀ j, j + 1 < n → h ≤ Real.log (k (j + 1)) - Real.log (k j) := by
  have pos : ∀ j, j + 1 < n → 0 < Real.log (k (j + 1)) - Real.log (k j) := fun j hj =>
    sub_pos.2 (Real.log_lt_log (hk.1 j (by omega)) (hk.2 j hj))
  by_cases hn : (Finset.range (n - 1)).Nonempty
  · obtain ⟨j, hj, hm⟩ := Finset.exists_min_image (Finset.range (n - 1)) (fun j => Real.log (k (j + 1)) - Real.log (k j)) hn
    rw [Finset.mem_range] at hj
    exact ⟨_, pos j (by omega), fun i hi => hm i (Finset.mem_range.2 (by omega))⟩
  · refine ⟨1, one_pos, fun j hj => absurd ⟨j, Finset.mem_range.2 (by omega)⟩ hn⟩

/-- Without rounding and without errors of the spectra the slopes and curvatures are exact. -/
theorem exists_nearRow {m n : ℕ} {k : ℕ → ℝ} (hk : Ascending n k) {y : ℕ → ℕ → ℝ} (hy : ∀ i < m, ∀ j < n, y i j ≠ 0) :
    ∃ g : GridErrors, (∀ i < m, NearRow Fmt.exact g n k (y i) (y i)) ∧ g.a = 0 ∧ g.step2 < g.h ∧ g.slope = 0 ∧ g.curvature = 0 := by
  obtain ⟨h, h0, hs⟩ := exists_step hk
  obtain ⟨g, hg⟩ : ∃ g : GridErrors, g = ⟨0, 0, ∑ i ∈ Finset.range m, ∑ j ∈ Finset.range n, abs (Real.log |y i j|),
    ∑ j ∈ Finset.range n, |Real.log (k j)|, h⟩ := ⟨_, rfl⟩
  have s1 : g.step1 = 0 := by rw [hg]; simp [GridErrors.step1, rounded]
  have s2 : g.step2 = 0 := by rw [hg]; simp [GridErrors.step2, GridErrors.middle, rounded]
  have sl : g.slope = 0 := by
    have : g.diff = 0 := by rw [hg]; simp [GridErrors.diff, rounded]
    unfold GridErrors.slope
    rw [this, s1, hg]
    simp [rounded]
  refine ⟨g, fun i hi => ⟨by rw [hg]; rfl, hk.1, fun j hj => ?_, by rw [hg]; exact hs, hy i hi, fun j hj => ?_,
    fun j _ => by rw [hg]; exact LogNear.refl _, by rw [s1, hg]; exact h0⟩, by rw [hg], by rw [s2, hg]; exact h0, sl, ?_⟩
  · rw [hg]
    exact Finset.single_le_sum (f := fun j => |Real.log (k j)|) (fun _ _ => abs_nonneg _) (Finset.mem_range.2 hj)
  · rw [hg]
    refine (Finset.single_le_sum (f := fun j => abs (Real.log |y i j|)) (fun _ _ => abs_nonneg _) (Finset.mem_range.2 hj)).trans ?_
    exact Finset.single_le_sum (f := fun i => ∑ j ∈ Finset.range n, abs (Real.log |y i j|))
      (fun _ _ => Finset.sum_nonneg fun _ _ => abs_nonneg _) (Finset.mem_range.2 hi)
  · unfold GridErrors.curvature
    rw [sl, s2, hg]
    simp [rounded]

/-- **C146** In exact arithmetic the rounded loss is the value that `eval` returns, whatever the order of the sums. -/
theorem C146_exact (p : LossParams) {m n a b : ℕ} (hm : 0 < m) (hn : 3 ≤ n) (ha : 0 < a) (hb : 0 < b) {k : ℕ → ℝ}
    (hk : Ascending n k) {zref : ℝ} (hz : 0 < zref) {y t : ℕ → ℕ → ℝ} (hy : ∀ i < m, ∀ j < n, y i j ≠ 0)
    (ht : ∀ i < m, ∀ j < n, t i j ≠ 0) (M D : Fin 3 → ℕ → ℕ → ℝ) {θ : List ℝ} (hθ : θ ≠ []) (s : LossState) {d : ℕ} :
    (∀ l, Fmt.exact.LossOf p zref m n a b k y t M D θ l d →
      (lossEval p ((List.range n).map k) zref ⟨table m n fun i j => fin (y i j), table m n fun i j => fin (t i j),
        .vec (θ.map fin), some (cohTables a b M D)⟩ s).1 = .ok (fin l)) ∧
    ∀ l, Fmt.exact.LossSpectraOf p zref m n k y t l d →
      (lossEval p ((List.range n).map k) zref ⟨table m n fun i j => fin (y i j), table m n fun i j => fin (t i j),
        .none, none⟩ s).1 = .ok (fin l) := by
  obtain ⟨g, H, g1, g2, g3, g4⟩ := exists_nearRow hk hy
  have sq0 : ∀ (i j : ℕ) (f : ℕ → ℕ → ℝ), 0 ≤ mean2 i j fun i j => f i j ^ 2 := fun i j f => mean2_nonneg _ _ _ fun _ _ => sq_nonneg _
  have p0 : 0 ≤ tableMisfit m n y t := sq0 _ _ _
  have p1 : 0 ≤ slopePenalty m n k y := sq0 _ _ _
  have p2 : 0 ≤ curvaturePenalty m n k y := sq0 _ _ _
  have p3 : 0 ≤ coherenceMisfit a b M D := by
    unfold coherenceMisfit
    exact div_nonneg (Finset.sum_nonneg fun c _ => mean2_nonneg _ _ _ fun _ _ => sq_nonneg _) (by norm_num)
  have p5 : (0 : ℝ) ≤ (θ.map fun x : ℝ => x ^ 2).sum / (θ.length : ℝ) :=
    div_nonneg (sum_nonneg_map _ _ fun _ _ => sq_nonneg _) (by positivity)
  have root : ∀ {x y : ℝ}, 0 ≤ x → 0 ≤ y → |Real.sqrt x - Real.sqrt y| ≤ 0 → y = x := fun h1 h2 h =>
    ((Real.sqrt_inj h1 h2).1 (sub_eq_zero.1 (abs_eq_zero.1 (le_antisymm h (abs_nonneg _))))).symm
  constructor
  · intro l hl
    obtain ⟨T, hT, l0, h⟩ := C146_total Fmt.exact p hm hn ha hb hk hz H g2 ht le_rfl (M := M) (M' := M) (D := D)
      (fun c i _ j _ => by simp) hθ s hl
    rw [exactF_e, g1, g3, g4] at h
    simp only [mul_zero, Real.exp_zero, sub_self, zero_mul, add_zero, ne_eq, OfNat.ofNat_ne_zero, not_false_eq_true, zero_pow,
      Real.sqrt_zero] at h
    have hv := C101_value p hm hn ha hb hk hz.ne' hy ht M D hθ s
    rw [hT] at hv
    have T0 : 0 ≤ T := by
      simp only [Except.ok.injEq, fin.injEq] at hv
      rw [hv]
      positivity
    rw [hT, root l0 T0 h]
  · intro l hl
    obtain ⟨T, hT, l0, h⟩ := C146_total_spectra Fmt.exact p hm hn hk hz H g2 ht s hl
    rw [exactF_e, g1, g3, g4] at h
    simp only [mul_zero, Real.exp_zero, sub_self, zero_mul, add_zero, ne_eq, OfNat.ofNat_ne_zero, not_false_eq_true, zero_pow,
      Real.sqrt_zero] at h
    have hv := C101_value_spectra p hm hn hk hz.ne' hy ht s
    rw [hT] at hv
    have T0 : 0 ≤ T := by
      simp only [Except.ok.injEq, fin.injEq] at hv
      rw [hv]
      positivity
    rw [hT, root l0 T0 h]

/-! ### Cases -/

/-- A learnable spectrum at one. -/
example : Learnable_EnergySpectrum (fin 1) 3 1 = fin (1 / 2) := by
  rw [(C136_exact.1 1 3 1 one_pos).2.2]
  simp [Fmt.learnable, Fmt.exact, Fmt.add, Fmt.div, Fmt.sq, Fmt.mul]
  norm_num

/-- A sheared entry: `zeta3` at `k = (1, 0, 0)` with lifetime one is two. -/
example : ShearFmt.exact.zeta3 ⟨1, 0, 0⟩ 1 = 2 := by
  simp [ShearFmt.zeta3, ShearFmt.sumsq, ShearFmt.k30, ShearFmt.exact, Fmt.exact, Fmt.add, Fmt.div, Fmt.sq, Fmt.mul]
  norm_num

theorem summation_exists (A : Fmt) (l : List ℝ) : ∃ s d, Summation A l s d :=
  (Summation.foldl (A := A) l).elim fun s hs => ⟨s, _, hs⟩

theorem mseOf_exists (A : Fmt) (m t : List (List ℝ)) : ∃ l d, A.MseOf m t l d :=
  (summation_exists A _).elim fun s h => h.elim fun d h => ⟨_, d, s, h, rfl⟩

theorem pen1Of_exists (A : Fmt) (α z : ℝ) (m n : ℕ) (k : ℕ → ℝ) (y : ℕ → ℕ → ℝ) : ∃ l d, A.Pen1Of α z m n k y l d :=
  (summation_exists A _).elim fun s h => h.elim fun d h => ⟨_, d, s, h, rfl⟩

theorem pen2Of_exists (A : Fmt) (α z : ℝ) (m n : ℕ) (k : ℕ → ℝ) (y : ℕ → ℕ → ℝ) : ∃ l d, A.Pen2Of α z m n k y l d :=
  (summation_exists A _).elim fun s h => h.elim fun d h => ⟨_, d, s, h, rfl⟩

theorem lossSpectraOf_exists (A : Fmt) (p : LossParams) (z : ℝ) (m n : ℕ) (k : ℕ → ℝ) (y t : ℕ → ℕ → ℝ) :
    ∃ l d, A.LossSpectraOf p z m n k y t l d := by
  obtain ⟨l1, d1, h1⟩ := mseOf_exists A (grid m n y) (grid m n t)
  obtain ⟨l2, d2, h2⟩ := pen1Of_exists A p.alphaPen1 z m n k y
  obtain ⟨l3, d3, h3⟩ := pen2Of_exists A p.alphaPen2 z m n k y
  refine ⟨_, max d1 (max d2 d3), l1, if 0 < p.alphaPen1 then l2 else 0, if 0 < p.alphaPen2 then l3 else 0,
    ⟨d1, le_max_left _ _, h1⟩, ?_, ?_, rfl⟩
  · by_cases h : 0 < p.alphaPen1
    · simp only [h, ↓reduceIte]; exact ⟨d2, by omega, h2⟩
    · simp only [h, ↓reduceIte]
  · by_cases h : 0 < p.alphaPen2
    · simp only [h, ↓reduceIte]; exact ⟨d3, by omega, h3⟩
    · simp only [h, ↓reduceIte]

/-- A loss of the spectra alone: two components over three wavenumbers. -/
example (p : LossParams) (s : LossState) (k : ℕ → ℝ) (hk : k = fun j : ℕ => (j : ℝ) + 1) (y : ℕ → ℕ → ℝ)
    (hy : y = fun i j : ℕ => (i : ℝ) + j + 1) : ∃ l, (lossEval p ((List.range 3).map k) 1
      ⟨table 2 3 fun i j => fin (y i j), table 2 3 fun _ _ => fin 1, .none, none⟩ s).1 = .ok (fin l) ∧
    ∃ d, Fmt.exact.LossSpectraOf p 1 2 3 k y (fun _ _ => 1) l d := by
  obtain ⟨l, d, h⟩ := lossSpectraOf_exists Fmt.exact p 1 2 3 k y (fun _ _ => 1)
  have h1 : Ascending 3 k := by
    rw [hk]
    exact ⟨fun j _ => by positivity, fun j _ => by push_cast; linarith⟩
  have h2 : ∀ i < 2, ∀ j < 3, y i j ≠ 0 := by
    rw [hy]
    intro i _ j _
    positivity
  have := C146_exact p (a := 1) (b := 1) two_pos le_rfl one_pos one_pos h1 one_pos h2 (t := fun _ _ => 1)
    (fun i _ j _ => one_ne_zero) (fun _ _ _ => 0) (fun _ _ _ => 0) (θ := [0]) (by simp) s (d := d)
  exact ⟨l, this.2 l h, d, h⟩

end
end Verif
