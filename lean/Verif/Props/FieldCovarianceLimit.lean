import Verif.Lemmas.RiemannBand
import Verif.Lemmas.TensorJoint
import Verif.Props.FieldSpectrum
import Verif.Props.MannLifetime
import Mathlib.Analysis.Fourier.RiemannLebesgueLemma

/-!
# Two-point covariances of the sampled field in large boxes: C132
-/

namespace Verif
open Fl MeasureTheory Verif.Spec Filter Topology

noncomputable section

/-- Covariance of two components at a displacement of `r` cells, for the spectral tensor `Φ` restricted to the wavevectors
that the spacings resolve: the cell volume over `(2 pi)^3` times the Fourier integral of `Φ`. -/
def Spec.bandCovariance (h1 h2 h3 : ℝ) (Φ : ℝ → ℝ → ℝ → Fin 3 → Fin 3 → ℝ) (r : ℤ × ℤ × ℤ) (i j : Fin 3) : ℂ :=
  ((h1 * h2 * h3 / (2 * Real.pi) ^ 3 : ℝ) : ℂ) *
    ∫ k in Set.Ico (-(Real.pi / h1)) (Real.pi / h1) ×ˢ Set.Ico (-(Real.pi / h2)) (Real.pi / h2) ×ˢ
      Set.Ico (-(Real.pi / h3)) (Real.pi / h3),
      ((Φ k.1 k.2.1 k.2.2 i j : ℝ) : ℂ) *
        Complex.exp (Complex.I * ((k.1 * (h1 * r.1) + k.2.1 * (h2 * r.2.1) + k.2.2 * (h3 * r.2.2) : ℝ) : ℂ))

/-- The spectral tensor is integrable over the wavevectors that the spacings resolve, so that the covariances are finite. -/
def Spec.BandIntegrable (Φ : ℝ → ℝ → ℝ → Fin 3 → Fin 3 → ℝ) : Prop :=
  ∀ h1 h2 h3 : ℝ, 0 < h1 → 0 < h2 → 0 < h3 → ∀ i j, IntegrableOn (fun k : ℝ × ℝ × ℝ => Φ k.1 k.2.1 k.2.2 i j)
    (Set.Ico (-(Real.pi / h1)) (Real.pi / h1) ×ˢ Set.Ico (-(Real.pi / h2)) (Real.pi / h2) ×ˢ
      Set.Ico (-(Real.pi / h3)) (Real.pi / h3))

/-- `Φ` is the spectral tensor of the fields from kernel `K` in the limit of large boxes: `Φ` is integrable; for spacings `h1, h2, h3`, every
displacement and tolerance, and every bound on the length of the box relative to its width and height, all boxes with enough
points, even or odd, and all white noises give fields with the covariances of `Φ` at any two points of that displacement. -/
def Spec.CovarianceLimit (K : GenKernel) (Φ : ℝ → ℝ → ℝ → Fin 3 → Fin 3 → ℝ) : Prop :=
  BandIntegrable Φ ∧
  ∀ h1 h2 h3 c e : ℝ, 0 < h1 → 0 < h2 → 0 < h3 → 0 < e → ∀ r : ℤ × ℤ × ℤ, ∃ N : ℕ,
    ∀ (n1 n2 n3 : ℕ) [NeZero n1] [NeZero n2] [NeZero n3], N ≤ n1 → N ≤ n2 → N ≤ n3 →
    h1 * n1 ≤ c * (h2 * n2) → h1 * n1 ≤ c * (h3 * n3) →
    ∀ (Ω : Type) [MeasurableSpace Ω] (μ : Measure Ω) (ξ : Box n1 n2 n3 → Fin 3 → Ω → ℝ), WhiteNoise μ (h1 * h2 * h3) ξ →
    ∀ x y : Box n1 n2 n3, (x.1.val : ℤ) - y.1.val = r.1 → (x.2.1.val : ℤ) - y.2.1.val = r.2.1 →
      (x.2.2.val : ℤ) - y.2.2.val = r.2.2 → ∀ i j,
      ‖((∫ ω, vfSample (spectrumOf K.eval (h1 * n1) (h2 * n2) (h3 * n3)) (transformNorm (h1 * n1) (h2 * n2) (h3 * n3))
            (fun z l => ξ z l ω) x i *
          vfSample (spectrumOf K.eval (h1 * n1) (h2 * n2) (h3 * n3)) (transformNorm (h1 * n1) (h2 * n2) (h3 * n3))
            (fun z l => ξ z l ω) y j ∂μ : ℝ) : ℂ) - bandCovariance h1 h2 h3 Φ r i j‖ ≤ e

/-! ### Indices -/

section idx
variable {n : ℕ} [NeZero n]

theorem fftIdx_cast (j : ZMod n) : ((fftIdx n j : ℤ) : ZMod n) = j := by
  unfold fftIdx
  split_ifs <;> simp

theorem fftIdx_mem_inner (j : ZMod n) : fftIdx n j ∈ innerIdx n ↔ 2 * j.val ≠ n := by
  have := ZMod.val_lt j
  rw [mem_innerIdx (NeZero.pos n)]
  unfold fftIdx
  split_ifs <;> omega

theorem fftIdx_of_inner {i : ℤ} (hi : i ∈ innerIdx n) : fftIdx n (i : ZMod n) = i := by
  rw [mem_innerIdx (NeZero.pos n)] at hi
  have h1 : -(n : ℤ) ≤ 2 * fftIdx n (i : ZMod n) ∧ 2 * fftIdx n (i : ZMod n) < n := by
    have := ZMod.val_lt (i : ZMod n)
    unfold fftIdx
    split_ifs <;> omega
  have h2 := fftIdx_cast (i : ZMod n)
  rw [ZMod.intCast_eq_intCast_iff_dvd_sub] at h2
  obtain ⟨c, h2⟩ := h2
  have hp : (0 : ℤ) < n := by exact_mod_cast NeZero.pos n
  have h3 : c = 0 := by
    by_contra h
    rcases lt_or_gt_of_ne h with h | h
    · have : (n : ℤ) * c ≤ -n := by nlinarith
      omega
    · have : (n : ℤ) ≤ n * c := by nlinarith
      omega
  rw [h3, mul_zero] at h2
  omega

/-- At a Nyquist index the wavenumber is the end of the band, for the index and for its negative. -/
theorem fftIdx_nyquist {j : ZMod n} (h : 2 * j.val = n) {s : ℝ} (hs : 0 < s) :
    |2 * Real.pi / (s * n) * fftIdx n j| = Real.pi / s ∧ -j = j := by
  have hp : (0 : ℝ) < n := by exact_mod_cast NeZero.pos n
  have hv : (2 : ℝ) * j.val = n := by exact_mod_cast h
  constructor
  · unfold fftIdx
    rw [if_neg (by omega)]
    push_cast
    have : 2 * Real.pi / (s * n) * ((j.val : ℝ) - n) = -(Real.pi / s) := by
      have : (j.val : ℝ) = n / 2 := by linarith
      rw [this]
      field_simp
      ring
    rw [this, abs_neg, abs_of_pos (div_pos Real.pi_pos hs)]
  · rw [neg_eq_iff_add_eq_zero, ← ZMod.natCast_zmod_val j, ← Nat.cast_add, ← two_mul, h, ZMod.natCast_self]

theorem nyquist_card : (Finset.univ.filter fun j : ZMod n => 2 * j.val = n).card ≤ 1 := by
  rw [Finset.card_le_one]
  intro a ha b hb
  rw [Finset.mem_filter] at ha hb
  exact ZMod.val_injective n (by omega)

end idx

variable {n1 n2 n3 : ℕ} [NeZero n1] [NeZero n2] [NeZero n3]

open Classical in
/-- The modes without a Nyquist index, as a set of integer frequencies. -/
theorem sum_inner (G : ℤ → ℤ → ℤ → ℂ) :
    ∑ k ∈ Finset.univ.filter (fun k : Box n1 n2 n3 => NonNyquist k), G (fftIdx n1 k.1) (fftIdx n2 k.2.1) (fftIdx n3 k.2.2) =
      ∑ i ∈ innerIdx n1 ×ˢ innerIdx n2 ×ˢ innerIdx n3, G i.1 i.2.1 i.2.2 := by
  refine Finset.sum_bij (fun k _ => (fftIdx n1 k.1, fftIdx n2 k.2.1, fftIdx n3 k.2.2)) ?_ ?_ ?_ ?_
  · intro k hk
    rw [Finset.mem_filter] at hk
    obtain ⟨-, h1, h2, h3⟩ := hk
    rw [Finset.mem_product, Finset.mem_product]
    exact ⟨(fftIdx_mem_inner _).2 h1, (fftIdx_mem_inner _).2 h2, (fftIdx_mem_inner _).2 h3⟩
  · intro k _ l _ h
    simp only [Prod.mk.injEq] at h
    refine Prod.ext ?_ (Prod.ext ?_ ?_)
    · rw [← fftIdx_cast k.1, ← fftIdx_cast l.1, h.1]
    · rw [← fftIdx_cast k.2.1, ← fftIdx_cast l.2.1, h.2.1]
    · rw [← fftIdx_cast k.2.2, ← fftIdx_cast l.2.2, h.2.2]
  · intro i hi
    rw [Finset.mem_product, Finset.mem_product] at hi
    obtain ⟨i1, i2, i3⟩ := hi
    refine ⟨((i.1 : ZMod n1), (i.2.1 : ZMod n2), (i.2.2 : ZMod n3)), ?_, ?_⟩
    · rw [Finset.mem_filter]
      refine ⟨Finset.mem_univ _, ?_, ?_, ?_⟩
      · rw [← fftIdx_mem_inner]; simp only; rwa [fftIdx_of_inner i1]
      · rw [← fftIdx_mem_inner]; simp only; rwa [fftIdx_of_inner i2]
      · rw [← fftIdx_mem_inner]; simp only; rwa [fftIdx_of_inner i3]
    · simp only [fftIdx_of_inner i1, fftIdx_of_inner i2, fftIdx_of_inner i3]
  · intro k _
    rfl

open Classical in
theorem nyquist_count : ((Finset.univ.filter fun k : Box n1 n2 n3 => ¬ NonNyquist k).card : ℝ) ≤
    n2 * n3 + n1 * n3 + n1 * n2 := by
  obtain ⟨A, hA⟩ : ∃ A, A = Finset.univ.filter fun j : ZMod n1 => 2 * j.val = n1 := ⟨_, rfl⟩
  obtain ⟨B, hB⟩ : ∃ A, A = Finset.univ.filter fun j : ZMod n2 => 2 * j.val = n2 := ⟨_, rfl⟩
  obtain ⟨C, hC⟩ : ∃ A, A = Finset.univ.filter fun j : ZMod n3 => 2 * j.val = n3 := ⟨_, rfl⟩
  have hsub : (Finset.univ.filter fun k : Box n1 n2 n3 => ¬ NonNyquist k) ⊆
      (A ×ˢ (Finset.univ : Finset (ZMod n2)) ×ˢ (Finset.univ : Finset (ZMod n3))) ∪
      ((Finset.univ : Finset (ZMod n1)) ×ˢ B ×ˢ (Finset.univ : Finset (ZMod n3))) ∪
      ((Finset.univ : Finset (ZMod n1)) ×ˢ (Finset.univ : Finset (ZMod n2)) ×ˢ C) := by
    intro k hk
    rw [Finset.mem_filter] at hk
    have hk := hk.2
    unfold NonNyquist at hk
    simp only [Finset.mem_union, Finset.mem_product, Finset.mem_univ, true_and, and_true, hA, hB, hC, Finset.mem_filter]
    tauto
  have h := Finset.card_le_card hsub
  have h1 := Finset.card_union_le ((A ×ˢ (Finset.univ : Finset (ZMod n2)) ×ˢ (Finset.univ : Finset (ZMod n3))) ∪
      ((Finset.univ : Finset (ZMod n1)) ×ˢ B ×ˢ (Finset.univ : Finset (ZMod n3))))
      ((Finset.univ : Finset (ZMod n1)) ×ˢ (Finset.univ : Finset (ZMod n2)) ×ˢ C)
  have h2 := Finset.card_union_le (A ×ˢ (Finset.univ : Finset (ZMod n2)) ×ˢ (Finset.univ : Finset (ZMod n3)))
      ((Finset.univ : Finset (ZMod n1)) ×ˢ B ×ˢ (Finset.univ : Finset (ZMod n3)))
  simp only [Finset.card_product, Finset.card_univ, ZMod.card] at h1 h2
  have a1 : A.card ≤ 1 := by rw [hA]; exact nyquist_card
  have b1 : B.card ≤ 1 := by rw [hB]; exact nyquist_card
  have c1 : C.card ≤ 1 := by rw [hC]; exact nyquist_card
  have g1 : A.card * (n2 * n3) ≤ n2 * n3 := by nlinarith [Nat.zero_le (n2 * n3)]
  have g2 : n1 * (B.card * n3) ≤ n1 * n3 := by
    have : B.card * n3 ≤ n3 := by nlinarith [Nat.zero_le n3]
    exact Nat.mul_le_mul_left _ this
  have g3 : n1 * (n2 * C.card) ≤ n1 * n2 := by
    have : n2 * C.card ≤ n2 := by nlinarith [Nat.zero_le n2]
    exact Nat.mul_le_mul_left _ this
  have : (Finset.univ.filter fun k : Box n1 n2 n3 => ¬ NonNyquist k).card ≤ n2 * n3 + n1 * n3 + n1 * n2 := by omega
  exact_mod_cast this

theorem wave_norm (k x : Box n1 n2 n3) : ‖wave k x‖ = 1 := by
  unfold wave
  rw [norm_mul, norm_mul, AddChar.norm_apply, AddChar.norm_apply, AddChar.norm_apply]
  norm_num

/-! ### Sizes -/

/-- The entries of the kernel are bounded on bounded sets of wavevectors, apart from a pole of first order at the origin. -/
def GenKernel.PoleBound (K : GenKernel) : Prop :=
  ∀ R : ℝ, ∃ D : ℝ, 0 ≤ D ∧ ∀ k : K3, |k.k1| ≤ R → |k.k2| ≤ R → |k.k3| ≤ R → ∀ i m,
    |(K.eval k i m).toReal| ≤ if k.k1 = 0 then D else D * (1 + 1 / Real.sqrt (kkR k))

theorem gram_norm_le {M : Matrix (Fin 3) (Fin 3) ℂ} {Q : ℝ} (h : ∀ i m, ‖M i m‖ ≤ Q) (i j : Fin 3) :
    ‖(M * M.conjTranspose) i j‖ ≤ 3 * Q ^ 2 := by
  rw [Matrix.mul_apply]
  refine (norm_sum_le _ _).trans ?_
  have : ∀ m ∈ (Finset.univ : Finset (Fin 3)), ‖M i m * M.conjTranspose m j‖ ≤ Q ^ 2 := by
    intro m _
    rw [norm_mul, Matrix.conjTranspose_apply, norm_star, sq]
    exact mul_le_mul (h i m) (h j m) (norm_nonneg _) ((norm_nonneg _).trans (h i m))
  refine (Finset.sum_le_sum this).trans ?_
  simp

theorem times1j_norm (A : Fin 3 → Fin 3 → Fl) (i m : Fin 3) : ‖times1j A i m‖ = |(A i m).toReal| := by
  unfold times1j
  rw [norm_mul, Complex.norm_I, one_mul, Complex.norm_real, Real.norm_eq_abs]

theorem gram_pole {K : GenKernel} (hb : K.PoleBound) (R : ℝ) : ∃ D : ℝ, 0 ≤ D ∧ ∀ q : ℝ × ℝ × ℝ, ‖q‖ ≤ R → ∀ i j,
    ‖(times1j (K.eval ⟨q.1, q.2.1, q.2.2⟩) * (times1j (K.eval ⟨q.1, q.2.1, q.2.2⟩)).conjTranspose) i j‖ ≤
      if q.1 = 0 then D else D * (1 + ‖q‖ ^ (-2 : ℝ)) := by
  obtain ⟨D, hD, h⟩ := hb R
  refine ⟨6 * D ^ 2, by positivity, fun q hq i j => ?_⟩
  obtain ⟨g1, g2, g3⟩ := norm3_ge q
  have h := h ⟨q.1, q.2.1, q.2.2⟩ (g1.trans hq) (g2.trans hq) (g3.trans hq)
  simp only at h
  by_cases h0 : q.1 = 0
  · rw [if_pos h0] at h ⊢
    refine (gram_norm_le (Q := D) (fun i m => by rw [times1j_norm]; exact h i m) i j).trans ?_
    nlinarith
  · rw [if_neg h0] at h ⊢
    refine (gram_norm_le (fun i m => by rw [times1j_norm]; exact h i m) i j).trans ?_
    have hk := kkR_pos (k := ⟨q.1, q.2.1, q.2.2⟩) h0
    obtain ⟨s, hs⟩ : ∃ s, s = Real.sqrt (kkR ⟨q.1, q.2.1, q.2.2⟩) := ⟨_, rfl⟩
    rw [← hs]
    have s0 : 0 < s := by rw [hs]; exact Real.sqrt_pos.2 hk
    have qs : ‖q‖ ≤ s := by
      rw [hs]
      refine norm3_le ?_ ?_ ?_ <;> refine Real.abs_le_sqrt ?_ <;> unfold kkR <;>
        nlinarith [mul_self_nonneg q.1, mul_self_nonneg q.2.1, mul_self_nonneg q.2.2]
    have q0 : 0 < ‖q‖ := (abs_pos.2 h0).trans_le g1
    have e : ‖q‖ ^ (-2 : ℝ) = 1 / ‖q‖ ^ 2 := by
      rw [Real.rpow_neg q0.le, Real.rpow_two, one_div]
    rw [e]
    have h1 : 1 / s ^ 2 ≤ 1 / ‖q‖ ^ 2 := by gcongr
    have h2 : (1 + 1 / s) ^ 2 ≤ 2 * (1 + 1 / s ^ 2) := by
      have e2 : 1 / s ^ 2 = (1 / s) ^ 2 := by rw [div_pow, one_pow]
      rw [e2]
      nlinarith [sq_nonneg (1 / s - 1)]
    calc 3 * (D * (1 + 1 / s)) ^ 2 = 3 * D ^ 2 * (1 + 1 / s) ^ 2 := by ring
      _ ≤ 3 * D ^ 2 * (2 * (1 + 1 / ‖q‖ ^ 2)) := by
        gcongr
        linarith
      _ = _ := by ring

/-- At a mode with a Nyquist index, the entries of the completed spectrum are bounded independently of the grid. -/
theorem completion_nyquist {K : GenKernel} {D h1 h2 h3 : ℝ} (p1 : 0 < h1) (p2 : 0 < h2) (p3 : 0 < h3) (hD : 0 ≤ D)
    (h : ∀ k : K3, |k.k1| ≤ Real.pi / h1 + Real.pi / h2 + Real.pi / h3 → |k.k2| ≤ Real.pi / h1 + Real.pi / h2 + Real.pi / h3 →
      |k.k3| ≤ Real.pi / h1 + Real.pi / h2 + Real.pi / h3 → ∀ i m,
      |(K.eval k i m).toReal| ≤ if k.k1 = 0 then D else D * (1 + 1 / Real.sqrt (kkR k)))
    {k : Box n1 n2 n3} (hk : ¬ NonNyquist k) (i m : Fin 3) :
    ‖completion (spectrumOf K.eval (h1 * n1) (h2 * n2) (h3 * n3)) k i m‖ ≤ D * (1 + (h1 + h2 + h3) / Real.pi) := by
  have hpi := Real.pi_pos
  have key : ∀ l : Box n1 n2 n3, ¬ NonNyquist l →
      ‖spectrumOf K.eval (h1 * n1) (h2 * n2) (h3 * n3) l i m‖ ≤ D * (1 + (h1 + h2 + h3) / Real.pi) := by
    intro l hl
    unfold spectrumOf
    rw [times1j_norm]
    obtain ⟨κ, hκ⟩ : ∃ κ, κ = freqOf (h1 * n1) (h2 * n2) (h3 * n3) l := ⟨_, rfl⟩
    rw [← hκ]
    obtain ⟨a1, b1⟩ := fftIdx_range l.1 p1
    obtain ⟨a2, b2⟩ := fftIdx_range l.2.1 p2
    obtain ⟨a3, b3⟩ := fftIdx_range l.2.2 p3
    have q1 : 0 < Real.pi / h1 := by positivity
    have q2 : 0 < Real.pi / h2 := by positivity
    have q3 : 0 < Real.pi / h3 := by positivity
    have r1 : |κ.k1| ≤ Real.pi / h1 + Real.pi / h2 + Real.pi / h3 := by
      rw [hκ]; simp only [freqOf]; rw [abs_le]; constructor <;> linarith
    have r2 : |κ.k2| ≤ Real.pi / h1 + Real.pi / h2 + Real.pi / h3 := by
      rw [hκ]; simp only [freqOf]; rw [abs_le]; constructor <;> linarith
    have r3 : |κ.k3| ≤ Real.pi / h1 + Real.pi / h2 + Real.pi / h3 := by
      rw [hκ]; simp only [freqOf]; rw [abs_le]; constructor <;> linarith
    have hx := h κ r1 r2 r3 i m
    have hf : 0 ≤ (h1 + h2 + h3) / Real.pi := by positivity
    split_ifs at hx with h0
    · refine hx.trans ?_
      nlinarith
    · refine hx.trans ?_
      have hs : Real.pi / (h1 + h2 + h3) ≤ Real.sqrt (kkR κ) := by
        have t : ∀ s c : ℝ, 0 < s → s ≤ h1 + h2 + h3 → |c| = Real.pi / s → c * c ≤ kkR κ →
            Real.pi / (h1 + h2 + h3) ≤ Real.sqrt (kkR κ) := by
          intro s c s0 hs hc hk
          refine le_trans ?_ (Real.abs_le_sqrt (by nlinarith : c ^ 2 ≤ kkR κ))
          rw [hc]
          gcongr
        unfold NonNyquist at hl
        by_cases e1 : 2 * l.1.val = n1
        · refine t h1 κ.k1 p1 (by linarith) ?_ ?_
          · rw [hκ]; exact (fftIdx_nyquist e1 p1).1
          · unfold kkR; nlinarith [mul_self_nonneg κ.k2, mul_self_nonneg κ.k3]
        · by_cases e2 : 2 * l.2.1.val = n2
          · refine t h2 κ.k2 p2 (by linarith) ?_ ?_
            · rw [hκ]; exact (fftIdx_nyquist e2 p2).1
            · unfold kkR; nlinarith [mul_self_nonneg κ.k1, mul_self_nonneg κ.k3]
          · have e3 : 2 * l.2.2.val = n3 := by tauto
            refine t h3 κ.k3 p3 (by linarith) ?_ ?_
            · rw [hκ]; exact (fftIdx_nyquist e3 p3).1
            · unfold kkR; nlinarith [mul_self_nonneg κ.k1, mul_self_nonneg κ.k2]
      have hsp : 0 < Real.pi / (h1 + h2 + h3) := by positivity
      have : 1 / Real.sqrt (kkR κ) ≤ (h1 + h2 + h3) / Real.pi := by
        rw [← one_div_div Real.pi (h1 + h2 + h3)]
        exact one_div_le_one_div_of_le hsp hs
      gcongr
  have hneg : ¬ NonNyquist (-k) := by
    intro hn
    apply hk
    obtain ⟨m1, m2, m3⟩ := hn
    refine ⟨fun e => m1 ?_, fun e => m2 ?_, fun e => m3 ?_⟩
    · rw [Prod.fst_neg, (fftIdx_nyquist e p1).2]; exact e
    · rw [Prod.snd_neg, Prod.fst_neg, (fftIdx_nyquist e p1).2]; exact e
    · rw [Prod.snd_neg, Prod.snd_neg, (fftIdx_nyquist e p1).2]; exact e
  have a := key k hk
  have b := key (-k) hneg
  unfold completion
  split_ifs
  · rw [norm_div]
    have := norm_add_le (spectrumOf K.eval (h1 * n1) (h2 * n2) (h3 * n3) k i m)
      ((starRingEnd ℂ) (spectrumOf K.eval (h1 * n1) (h2 * n2) (h3 * n3) (-k) i m))
    rw [RCLike.norm_conj] at this
    have e2 : ‖(2 : ℂ)‖ = 2 := by simp
    rw [e2, div_le_iff₀ (by norm_num)]
    linarith
  · exact a
  · rw [RCLike.norm_conj]; exact b

theorem cov_completion {Ω : Type} [MeasurableSpace Ω] {μ : Measure Ω} (ξ : Box n1 n2 n3 → Fin 3 → Ω → ℝ) {h1 h2 h3 : ℝ}
    (p1 : 0 < h1) (p2 : 0 < h2) (p3 : 0 < h3) (hξ : WhiteNoise μ (h1 * h2 * h3) ξ)
    (S : Box n1 n2 n3 → Matrix (Fin 3) (Fin 3) ℂ) (x y : Box n1 n2 n3) (i j : Fin 3) :
    ((∫ ω, vfSample S (transformNorm (h1 * n1) (h2 * n2) (h3 * n3)) (fun z l => ξ z l ω) x i *
        vfSample S (transformNorm (h1 * n1) (h2 * n2) (h3 * n3)) (fun z l => ξ z l ω) y j ∂μ : ℝ) : ℂ) =
      1 / (voxels n1 n2 n3 : ℂ) * ∑ k, (completion S k * (completion S k).conjTranspose) i j * wave k (x - y) := by
  rw [C81_any_grid ξ hξ.1 _ hξ.2]
  congr 1
  have q1 : (0 : ℝ) < n1 := by exact_mod_cast NeZero.pos n1
  have q2 : (0 : ℝ) < n2 := by exact_mod_cast NeZero.pos n2
  have q3 : (0 : ℝ) < n3 := by exact_mod_cast NeZero.pos n3
  have : (transformNorm (h1 * n1) (h2 * n2) (h3 * n3)) ^ 2 = h1 * h2 * h3 * voxels n1 n2 n3 := by
    rw [transformNorm, Real.sq_sqrt (by positivity), voxels]; push_cast; ring
  rw [← Complex.ofReal_pow, this]
  have hne : (h1 * h2 * h3 : ℝ) ≠ 0 := by positivity
  have hne' : ((h1 * h2 * h3 : ℝ) : ℂ) ≠ 0 := by exact_mod_cast hne
  have hv := voxels_ne (n1 := n1) (n2 := n2) (n3 := n3)
  push_cast at hne' ⊢
  field_simp
  exact div_self hne'

/-- Integrand of the covariance: the kernel's spectral tensor times the plane wave. -/
def covIntegrand (K : GenKernel) (h1 h2 h3 : ℝ) (r : ℤ × ℤ × ℤ) (i j : Fin 3) (q : ℝ × ℝ × ℝ) : ℂ :=
  (times1j (K.eval ⟨q.1, q.2.1, q.2.2⟩) * (times1j (K.eval ⟨q.1, q.2.1, q.2.2⟩)).conjTranspose) i j *
    Complex.exp (Complex.I * ((q.1 * (h1 * r.1) + q.2.1 * (h2 * r.2.1) + q.2.2 * (h3 * r.2.2) : ℝ) : ℂ))

theorem covIntegrand_norm (K : GenKernel) (h1 h2 h3 : ℝ) (r : ℤ × ℤ × ℤ) (i j : Fin 3) (q : ℝ × ℝ × ℝ) :
    ‖covIntegrand K h1 h2 h3 r i j q‖ =
      ‖(times1j (K.eval ⟨q.1, q.2.1, q.2.2⟩) * (times1j (K.eval ⟨q.1, q.2.1, q.2.2⟩)).conjTranspose) i j‖ := by
  unfold covIntegrand
  rw [norm_mul, mul_comm Complex.I, Complex.norm_exp_ofReal_mul_I, mul_one]

theorem ae_fst_ne : ∀ᵐ q : ℝ × ℝ × ℝ, q.1 ≠ 0 := by
  rw [ae_iff]
  have : {q : ℝ × ℝ × ℝ | ¬ q.1 ≠ 0} = {(0 : ℝ)} ×ˢ Set.univ := by ext q; simp
  rw [this, Measure.volume_eq_prod, Measure.prod_prod]
  simp

theorem bandIntegrable_of {K : GenKernel} {Φ : ℝ → ℝ → ℝ → Fin 3 → Fin 3 → ℝ}
    (hΦ : ∀ k1 k2 k3, k1 ≠ 0 → ∀ i j, (times1j (K.eval ⟨k1, k2, k3⟩) * (times1j (K.eval ⟨k1, k2, k3⟩)).conjTranspose) i j =
      ((Φ k1 k2 k3 i j : ℝ) : ℂ))
    (hc : ∀ i j, ContinuousOn (fun q : ℝ × ℝ × ℝ => Φ q.1 q.2.1 q.2.2 i j) {q | q.1 ≠ 0}) (hb : K.PoleBound) :
    BandIntegrable Φ := by
  intro h1 h2 h3 p1 p2 p3 i j
  obtain ⟨D, hD, hgram⟩ := gram_pole hb (max (Real.pi / h1) (max (Real.pi / h2) (Real.pi / h3)))
  have hopen : IsOpen {q : ℝ × ℝ × ℝ | q.1 ≠ 0} := isOpen_ne_fun continuous_fst continuous_const
  have hr : (volume : Measure (ℝ × ℝ × ℝ)).restrict {q | q.1 ≠ 0} = volume := by
    rw [Measure.restrict_eq_self_of_ae_mem]
    exact ae_fst_ne
  have hm : AEStronglyMeasurable (fun k : ℝ × ℝ × ℝ => Φ k.1 k.2.1 k.2.2 i j) volume := by
    rw [← hr]
    exact (hc i j).aestronglyMeasurable hopen.measurableSet
  refine Integrable.mono' (bandBox_integrable (Real.pi / h1) (Real.pi / h2) (Real.pi / h3) D 1) hm.restrict ?_
  refine (ae_restrict_iff' (bandBox_meas (Real.pi / h1) (Real.pi / h2) (Real.pi / h3))).2 ?_
  filter_upwards [ae_fst_ne] with q hq hm
  have := hgram q (bandBox_norm hm) i j
  rw [if_neg hq, hΦ _ _ _ hq, Complex.norm_real] at this
  rw [one_mul]
  exact this

open Classical in
theorem covarianceLimit_of {K : GenKernel} (hK : K.Valid) {Φ : ℝ → ℝ → ℝ → Fin 3 → Fin 3 → ℝ}
    (hΦ : ∀ k1 k2 k3, k1 ≠ 0 → ∀ i j, (times1j (K.eval ⟨k1, k2, k3⟩) * (times1j (K.eval ⟨k1, k2, k3⟩)).conjTranspose) i j =
      ((Φ k1 k2 k3 i j : ℝ) : ℂ))
    (hc : ∀ i j, ContinuousOn (fun q : ℝ × ℝ × ℝ => Φ q.1 q.2.1 q.2.2 i j) {q | q.1 ≠ 0}) (hb : K.PoleBound) :
    CovarianceLimit K Φ := by
  refine ⟨bandIntegrable_of hΦ hc hb, ?_⟩
  intro h1 h2 h3 c e p1 p2 p3 he r
  have hpi := Real.pi_pos
  have A0 : 0 < Real.pi / h1 := by positivity
  have B0 : 0 < Real.pi / h2 := by positivity
  have C0 : 0 < Real.pi / h3 := by positivity
  obtain ⟨D, hD, hgram⟩ := gram_pole hb (max (Real.pi / h1) (max (Real.pi / h2) (Real.pi / h3)))
  obtain ⟨D', hD', hent⟩ := hb (Real.pi / h1 + Real.pi / h2 + Real.pi / h3)
  obtain ⟨v, hv⟩ : ∃ v, v = h1 * h2 * h3 / (2 * Real.pi) ^ 3 := ⟨_, rfl⟩
  have v0 : 0 < v := by rw [hv]; positivity
  have hopen : IsOpen {q : ℝ × ℝ × ℝ | q.1 ≠ 0} := isOpen_ne_fun continuous_fst continuous_const
  have hcont : ∀ i j, ∀ q : ℝ × ℝ × ℝ, q.1 ≠ 0 → ContinuousAt (covIntegrand K h1 h2 h3 r i j) q := by
    intro i j q hq
    have h1' : ContinuousAt (fun q : ℝ × ℝ × ℝ => ((Φ q.1 q.2.1 q.2.2 i j : ℝ) : ℂ) *
        Complex.exp (Complex.I * ((q.1 * (h1 * r.1) + q.2.1 * (h2 * r.2.1) + q.2.2 * (h3 * r.2.2) : ℝ) : ℂ))) q := by
      refine ContinuousAt.mul ?_ (by fun_prop)
      exact ContinuousAt.comp (g := fun t : ℝ => (t : ℂ)) (f := fun q : ℝ × ℝ × ℝ => Φ q.1 q.2.1 q.2.2 i j)
        Complex.continuous_ofReal.continuousAt ((hc i j).continuousAt (hopen.mem_nhds hq))
    refine h1'.congr ?_
    filter_upwards [hopen.mem_nhds hq] with p hp
    unfold covIntegrand
    rw [hΦ _ _ _ hp]
  have hN : ∀ i j : Fin 3, ∃ N : ℕ, ∀ n1 n2 n3 : ℕ, 0 < n1 → 0 < n2 → 0 < n3 → N ≤ n1 → N ≤ n2 → N ≤ n3 →
      2 * (Real.pi / h2) / n2 ≤ |c| * (2 * (Real.pi / h1) / n1) → 2 * (Real.pi / h3) / n3 ≤ |c| * (2 * (Real.pi / h1) / n1) →
      ‖((2 * (Real.pi / h1) / n1 * (2 * (Real.pi / h2) / n2) * (2 * (Real.pi / h3) / n3) : ℝ) : ℂ) *
          ∑ i' ∈ innerIdx n1 ×ˢ innerIdx n2 ×ˢ innerIdx n3,
            covIntegrand K h1 h2 h3 r i j (2 * (Real.pi / h1) / n1 * i'.1, 2 * (Real.pi / h2) / n2 * i'.2.1,
              2 * (Real.pi / h3) / n3 * i'.2.2) -
        ∫ x in bandBox (Real.pi / h1) (Real.pi / h2) (Real.pi / h3), covIntegrand K h1 h2 h3 r i j x‖ ≤ e / 2 / v := by
    intro i j
    refine riemann_band A0 B0 C0 (hcont i j) (D := D) ?_ ?_ (abs_nonneg c) (by positivity)
    · intro q hq h0
      rw [covIntegrand_norm]
      have := hgram q (bandBox_norm hq) i j
      rwa [if_neg h0] at this
    · intro q hq h0
      rw [covIntegrand_norm]
      have := hgram q (bandBox_norm hq) i j
      rwa [if_pos h0] at this
  choose N hN using hN
  obtain ⟨T, hT⟩ : ∃ T, T = 3 * (D' * (1 + (h1 + h2 + h3) / Real.pi)) ^ 2 := ⟨_, rfl⟩
  have T0 : 0 ≤ T := by rw [hT]; positivity
  obtain ⟨N0, hN0⟩ := exists_nat_ge (6 * T / e)
  refine ⟨(∑ i, ∑ j, N i j) + N0 + 1, ?_⟩
  intro n1 n2 n3 _ _ _ g1 g2 g3 k2 k3 Ω _ μ ξ hξ x y x1 x2 x3 i j
  have hle : N i j ≤ ∑ i, ∑ j, N i j :=
    (Finset.single_le_sum (f := fun j => N i j) (fun _ _ => Nat.zero_le _) (Finset.mem_univ j)).trans
      (Finset.single_le_sum (f := fun i => ∑ j, N i j) (fun _ _ => Nat.zero_le _) (Finset.mem_univ i))
  have q1 : (0 : ℝ) < n1 := by exact_mod_cast NeZero.pos n1
  have q2 : (0 : ℝ) < n2 := by exact_mod_cast NeZero.pos n2
  have q3 : (0 : ℝ) < n3 := by exact_mod_cast NeZero.pos n3
  have hratio : ∀ (s n : ℝ), 0 < s → 0 < n → h1 * n1 ≤ c * (s * n) → 2 * (Real.pi / s) / n ≤ |c| * (2 * (Real.pi / h1) / n1) := by
    intro s n hs hn h
    have h' : h1 * n1 ≤ |c| * (s * n) := h.trans (mul_le_mul_of_nonneg_right (le_abs_self c) (by positivity))
    have e1 : 2 * (Real.pi / s) / n = 2 * Real.pi / (s * n) := by field_simp
    have e2 : |c| * (2 * (Real.pi / h1) / n1) = |c| * (2 * Real.pi) / (h1 * n1) := by field_simp
    rw [e1, e2, div_le_div_iff₀ (by positivity) (by positivity)]
    nlinarith
  have hd := hN i j n1 n2 n3 (NeZero.pos n1) (NeZero.pos n2) (NeZero.pos n3) (by omega) (by omega) (by omega)
    (hratio h2 n2 p2 q2 k2) (hratio h3 n3 p3 q3 k3)
  rw [cov_completion ξ p1 p2 p3 hξ]
  obtain ⟨S, hS⟩ : ∃ S : Box n1 n2 n3 → Matrix (Fin 3) (Fin 3) ℂ, S = spectrumOf K.eval (h1 * n1) (h2 * n2) (h3 * n3) := ⟨_, rfl⟩
  rw [← hS, ← Finset.sum_filter_add_sum_filter_not Finset.univ (fun k : Box n1 n2 n3 => NonNyquist k)]
  -- the modes without a Nyquist index
  have hin : ∑ k ∈ Finset.univ.filter (fun k : Box n1 n2 n3 => NonNyquist k),
        (completion S k * (completion S k).conjTranspose) i j * wave k (x - y) =
      ∑ i' ∈ innerIdx n1 ×ˢ innerIdx n2 ×ˢ innerIdx n3,
        covIntegrand K h1 h2 h3 r i j (2 * (Real.pi / h1) / n1 * i'.1, 2 * (Real.pi / h2) / n2 * i'.2.1,
          2 * (Real.pi / h3) / n3 * i'.2.2) := by
    rw [← sum_inner (n1 := n1) (n2 := n2) (n3 := n3) fun a b c => covIntegrand K h1 h2 h3 r i j
      (2 * (Real.pi / h1) / n1 * a, 2 * (Real.pi / h2) / n2 * b, 2 * (Real.pi / h3) / n3 * c)]
    refine Finset.sum_congr rfl fun k hk => ?_
    rw [Finset.mem_filter] at hk
    have hherm : S (-k) = (S k).map (starRingEnd ℂ) := by rw [hS]; exact spectrum_hermitian hK hk.2
    rw [completion_of_hermitian hherm, (C81_wave p1 p2 p3 k x y).1]
    have f1 : 2 * (Real.pi / h1) / n1 = 2 * Real.pi / (h1 * n1) := by field_simp
    have f2 : 2 * (Real.pi / h2) / n2 = 2 * Real.pi / (h2 * n2) := by field_simp
    have f3 : 2 * (Real.pi / h3) / n3 = 2 * Real.pi / (h3 * n3) := by field_simp
    rw [f1, f2, f3, hS]
    unfold covIntegrand spectrumOf freqOf
    have y1 : h1 * (x.1.val : ℝ) - h1 * y.1.val = h1 * r.1 := by rw [← x1]; push_cast; ring
    have y2 : h2 * (x.2.1.val : ℝ) - h2 * y.2.1.val = h2 * r.2.1 := by rw [← x2]; push_cast; ring
    have y3 : h3 * (x.2.2.val : ℝ) - h3 * y.2.2.val = h3 * r.2.2 := by rw [← x3]; push_cast; ring
    simp only [y1, y2, y3]
  rw [hin]
  obtain ⟨P, hP⟩ : ∃ P, P = ∑ i' ∈ innerIdx n1 ×ˢ innerIdx n2 ×ˢ innerIdx n3,
        covIntegrand K h1 h2 h3 r i j (2 * (Real.pi / h1) / n1 * i'.1, 2 * (Real.pi / h2) / n2 * i'.2.1,
          2 * (Real.pi / h3) / n3 * i'.2.2) := ⟨_, rfl⟩
  rw [← hP] at hd ⊢
  -- the modes with a Nyquist index
  have hout : ‖∑ k ∈ Finset.univ.filter (fun k : Box n1 n2 n3 => ¬ NonNyquist k),
        (completion S k * (completion S k).conjTranspose) i j * wave k (x - y)‖ ≤ (n2 * n3 + n1 * n3 + n1 * n2) * T := by
    refine (norm_sum_le _ _).trans ?_
    have : ∀ k ∈ Finset.univ.filter (fun k : Box n1 n2 n3 => ¬ NonNyquist k),
        ‖(completion S k * (completion S k).conjTranspose) i j * wave k (x - y)‖ ≤ T := by
      intro k hk
      rw [Finset.mem_filter] at hk
      rw [norm_mul, wave_norm, mul_one, hT]
      refine gram_norm_le (fun i m => ?_) i j
      rw [hS]
      exact completion_nyquist p1 p2 p3 hD' hent hk.2 i m
    refine (Finset.sum_le_sum this).trans ?_
    rw [Finset.sum_const, nsmul_eq_mul]
    exact mul_le_mul_of_nonneg_right nyquist_count T0
  obtain ⟨O, hO⟩ : ∃ O, O = ∑ k ∈ Finset.univ.filter (fun k : Box n1 n2 n3 => ¬ NonNyquist k),
        (completion S k * (completion S k).conjTranspose) i j * wave k (x - y) := ⟨_, rfl⟩
  rw [← hO] at hout ⊢
  -- the integral
  have hint : bandCovariance h1 h2 h3 Φ r i j = (v : ℂ) *
      ∫ q in bandBox (Real.pi / h1) (Real.pi / h2) (Real.pi / h3), covIntegrand K h1 h2 h3 r i j q := by
    unfold bandCovariance
    rw [hv]
    congr 1
    refine setIntegral_congr_ae (bandBox_meas _ _ _) ?_
    filter_upwards [ae_fst_ne] with q hq _
    unfold covIntegrand
    rw [hΦ _ _ _ hq]
  rw [hint]
  obtain ⟨J, hJ⟩ : ∃ J, J = ∫ q in bandBox (Real.pi / h1) (Real.pi / h2) (Real.pi / h3), covIntegrand K h1 h2 h3 r i j q := ⟨_, rfl⟩
  rw [← hJ] at hd ⊢
  have hV : (1 : ℂ) / (voxels n1 n2 n3 : ℂ) = (v : ℂ) *
      ((2 * (Real.pi / h1) / n1 * (2 * (Real.pi / h2) / n2) * (2 * (Real.pi / h3) / n3) : ℝ) : ℂ) := by
    have : (1 : ℝ) / (voxels n1 n2 n3 : ℝ) = v * (2 * (Real.pi / h1) / n1 * (2 * (Real.pi / h2) / n2) * (2 * (Real.pi / h3) / n3)) := by
      rw [hv, voxels]
      push_cast
      field_simp
    rw [← Complex.ofReal_mul, ← this]
    push_cast
    rfl
  have hsplit : 1 / (voxels n1 n2 n3 : ℂ) * (P + O) - (v : ℂ) * J = (v : ℂ) *
      (((2 * (Real.pi / h1) / n1 * (2 * (Real.pi / h2) / n2) * (2 * (Real.pi / h3) / n3) : ℝ) : ℂ) * P - J) +
      1 / (voxels n1 n2 n3 : ℂ) * O := by
    rw [mul_add, hV]; ring
  rw [hsplit]
  refine (norm_add_le _ _).trans ?_
  have b1 : ‖(v : ℂ) * (((2 * (Real.pi / h1) / n1 * (2 * (Real.pi / h2) / n2) * (2 * (Real.pi / h3) / n3) : ℝ) : ℂ) * P - J)‖ ≤
      e / 2 := by
    rw [norm_mul, Complex.norm_real, Real.norm_of_nonneg v0.le]
    rwa [le_div_iff₀' v0] at hd
  have b2 : ‖1 / (voxels n1 n2 n3 : ℂ) * O‖ ≤ e / 2 := by
    rw [norm_mul, norm_div, norm_one, Complex.norm_natCast, voxels]
    push_cast
    have hn : ∀ n : ℕ, (∑ i, ∑ j, N i j) + N0 + 1 ≤ n → 6 * T ≤ e * n := by
      intro n hn
      have : (N0 : ℝ) ≤ n := by exact_mod_cast (by omega : N0 ≤ n)
      have h6 := hN0.trans this
      rwa [div_le_iff₀' he] at h6
    have w1 := hn n1 g1
    have w2 := hn n2 g2
    have w3 := hn n3 g3
    rw [one_div, inv_mul_le_iff₀ (by positivity)]
    refine hout.trans ?_
    have z1 := mul_le_mul_of_nonneg_left w1 (by positivity : (0 : ℝ) ≤ n2 * n3)
    have z2 := mul_le_mul_of_nonneg_left w2 (by positivity : (0 : ℝ) ≤ n1 * n3)
    have z3 := mul_le_mul_of_nonneg_left w3 (by positivity : (0 : ℝ) ≤ n1 * n2)
    nlinarith
  linarith

/-! ### The three kernels -/

theorem kkR_le_of {k : K3} {R : ℝ} (h1 : |k.k1| ≤ R) (h2 : |k.k2| ≤ R) (h3 : |k.k3| ≤ R) :
    Real.sqrt (kkR k) ≤ 2 * R := by
  have hR : 0 ≤ R := (abs_nonneg _).trans h1
  rw [show (2 * R) = Real.sqrt ((2 * R) ^ 2) by rw [Real.sqrt_sq (by positivity)]]
  refine Real.sqrt_le_sqrt ?_
  unfold kkR
  have a := abs_mul_abs_self k.k1
  have b := abs_mul_abs_self k.k2
  have c := abs_mul_abs_self k.k3
  nlinarith [abs_nonneg k.k1, abs_nonneg k.k2, abs_nonneg k.k3]

theorem vk_poleBound {L E0 : ℝ} (hL : 0 < L) (hE : 0 ≤ E0) : (GenKernel.vk L E0).PoleBound := by
  intro R
  refine ⟨Real.sqrt (E0 * L ^ (17 / 3 : ℝ) / (4 * Real.pi)) / L, by positivity, fun k _ _ _ i m => ?_⟩
  obtain ⟨g1, -⟩ := constR_mul_le hL hE (kkR_nonneg k)
  have hc := kernelConst_fin hL hE (kkR_nonneg k)
  have hk : vkKernel L E0 k i m = fin (constR L E0 (kkR k) *
      (![![0, -k.k3, k.k2], ![k.k3, 0, -k.k1], ![-k.k2, k.k1, 0]] : Fin 3 → Fin 3 → ℝ) i m) := by
    unfold vkKernel
    rw [kkR_pow]
    simp only [hc]
    fin_cases i <;> fin_cases m <;> simp [crossMat]
  have hle : |(vkKernel L E0 k i m).toReal| ≤ Real.sqrt (E0 * L ^ (17 / 3 : ℝ) / (4 * Real.pi)) / L := by
    rw [hk, toReal_fin, abs_mul, abs_of_nonneg (constR_nonneg _ _ _)]
    refine (mul_le_mul_of_nonneg_left ?_ (constR_nonneg _ _ _)).trans g1
    have a1 : |k.k1| ≤ Real.sqrt (kkR k) := Real.abs_le_sqrt (by
      unfold kkR; nlinarith [mul_self_nonneg k.k2, mul_self_nonneg k.k3])
    have a2 : |k.k2| ≤ Real.sqrt (kkR k) := Real.abs_le_sqrt (by
      unfold kkR; nlinarith [mul_self_nonneg k.k1, mul_self_nonneg k.k3])
    have a3 : |k.k3| ≤ Real.sqrt (kkR k) := Real.abs_le_sqrt (by
      unfold kkR; nlinarith [mul_self_nonneg k.k1, mul_self_nonneg k.k2])
    fin_cases i <;> fin_cases m <;> simp <;> assumption
  refine hle.trans ?_
  have q0 : 0 ≤ Real.sqrt (E0 * L ^ (17 / 3 : ℝ) / (4 * Real.pi)) / L := by positivity
  have : 0 ≤ 1 / Real.sqrt (kkR k) := by positivity
  split_ifs
  · exact le_rfl
  · nlinarith

/-- **C132** Fields of the von Karman generator: the isotropic tensor. -/
theorem C132_vk {L E0 : ℝ} (hL : 0 < L) (hE : 0 ≤ E0) :
    CovarianceLimit (.vk L E0) fun k1 k2 k3 i j => isoTensor (vkE L E0) ![k1, k2, k3] i j := by
  have hv : ∀ k1 k2 k3 : ℝ, k1 ≠ 0 → (K3.mk k1 k2 k3).vec ≠ 0 := fun k1 k2 k3 h h0 => h (by
    have := congrFun h0 0
    simpa [K3.vec] using this)
  refine covarianceLimit_of (K := .vk L E0) (And.intro hL hE) (fun k1 k2 k3 h i j => ?_) (fun i j => ?_) (vk_poleBound hL hE)
  · have := (C10_vk_kernel hL hE ⟨k1, k2, k3⟩).2.2 (hv k1 k2 k3 h)
    have h2 := congrFun (congrFun this i) j
    simp only [Matrix.map_apply] at h2
    exact h2
  · rw [continuousOn_iff_continuous_restrict]
    have hc := contJ_sheared (α := {q : ℝ × ℝ × ℝ | q.1 ≠ 0}) (k1 := fun q => q.1.1) (k2 := fun q => q.1.2.1)
      (k3 := fun q => q.1.2.2) (b := fun _ => 0) (fun q => q.2) (by fun_prop) (by fun_prop) (by fun_prop) continuous_const
      (energyOf_cont hL E0 .vkLike) i j
    have e : (fun q : {q : ℝ × ℝ × ℝ | q.1 ≠ 0} => isoTensor (vkE L E0) ![q.1.1, q.1.2.1, q.1.2.2] i j) =
        fun q : {q : ℝ × ℝ × ℝ | q.1 ≠ 0} => shearedTensor (Spec.energyOf L E0 .vkLike) (K3.vec ⟨q.1.1, q.1.2.1, q.1.2.2⟩) 0 i j := by
      funext q
      have hk1 : q.1.1 ≠ 0 := q.2
      have hk : shearSq q.1.1 q.1.2.1 q.1.2.2 0 ≠ 0 := by
        unfold shearSq
        have : 0 < q.1.1 ^ 2 := by positivity
        positivity
      have hd : distortion (K3.vec ⟨q.1.1, q.1.2.1, q.1.2.2⟩) 0 = 1 := by
        unfold distortion rdt1 rdt2 rdt3
        ext a b
        fin_cases a <;> fin_cases b <;> simp [K3.vec, hk]
      have hi : initialWave (K3.vec ⟨q.1.1, q.1.2.1, q.1.2.2⟩) 0 = ![q.1.1, q.1.2.1, q.1.2.2] := by
        simp [initialWave, K3.vec]
      unfold shearedTensor
      rw [hd, hi, Matrix.transpose_one, one_mul, mul_one]
      rfl
    change Continuous fun q : {q : ℝ × ℝ × ℝ | q.1 ≠ 0} => isoTensor (vkE L E0) ![q.1.1, q.1.2.1, q.1.2.2] i j
    rw [e]
    exact hc

/-- The lifetime is finite and continuous off the plane `k1 = 0` and grows at most like the inverse wavenumber near the
origin. -/
def OPSParams.LifetimeTame (p : OPSParams) : Prop :=
  ∃ b : ℝ × ℝ × ℝ → ℝ, ContinuousOn b {q | q.1 ≠ 0} ∧
    (∀ q : ℝ × ℝ × ℝ, q.1 ≠ 0 → eddyLifetime p.hyp p.ty p.L p.T ⟨q.1, q.2.1, q.2.2⟩ = fin (b q)) ∧
    ∀ R : ℝ, ∃ B : ℝ, ∀ q : ℝ × ℝ × ℝ, q.1 ≠ 0 → ‖q‖ ≤ R → |b q| * Real.sqrt (kkR ⟨q.1, q.2.1, q.2.2⟩) ≤ B

theorem shear_pole {K : GenKernel} {L M : ℝ} (hL : 0 < L) (hM : 0 ≤ M) (p : OPSParams)
    (hp : p.LifetimeTame)
    (he : ∀ k : K3, k.k1 ≠ 0 → K.eval k = shearKernel L M k (eddyLifetime p.hyp p.ty p.L p.T k))
    (he0 : ∀ k : K3, k.k1 = 0 → ∃ b : ℝ, K.eval k = shearKernel L M k (fin b)) : K.PoleBound := by
  obtain ⟨b, hb, eb, hgrow⟩ := hp
  intro R
  obtain ⟨B, hB⟩ := hgrow R
  obtain ⟨Q, hQ⟩ : ∃ Q, Q = Real.sqrt (M * L ^ (17 / 3 : ℝ) / (4 * Real.pi)) / L := ⟨_, rfl⟩
  obtain ⟨P, hP⟩ : ∃ P, P = Real.sqrt (M * L ^ (17 / 3 : ℝ) / (4 * Real.pi)) / L ^ 2 := ⟨_, rfl⟩
  have Q0 : 0 ≤ Q := by rw [hQ]; positivity
  have P0 : 0 ≤ P := by rw [hP]; positivity
  have hpi := Real.pi_pos
  refine ⟨Q + (Q * (1 + Real.pi) * |B| + P), by positivity, fun k k1 k2 k3 i m => ?_⟩
  have x0 : 0 ≤ Q * (1 + Real.pi) * |B| + P := by positivity
  by_cases h0 : k.k1 = 0
  · rw [if_pos h0]
    obtain ⟨b0, e0⟩ := he0 k h0
    rw [e0, shearKernel_fin hL hM, toReal_fin]
    have := shear_entry_plane (b := b0) hL hM h0 i m
    rw [← hQ] at this
    linarith
  · rw [if_neg h0, he k h0, eb (k.k1, k.k2, k.k3) h0, shearKernel_fin hL hM, toReal_fin]
    have hg := hB (k.k1, k.k2, k.k3) h0 (norm3_le k1 k2 k3)
    have := shear_entry_le (k := k) hL hM h0 (hg.trans (le_abs_self B)) i m
    rw [← hQ, ← hP] at this
    refine this.trans ?_
    have kp := Real.sqrt_pos.2 (kkR_pos h0)
    have w : 0 ≤ 1 / Real.sqrt (kkR k) := by positivity
    rw [div_eq_mul_one_div (Q * (1 + Real.pi) * |B| + P)]
    nlinarith [mul_nonneg Q0 w]

theorem shear_covariance {K : GenKernel} (hK : K.Valid) {L M : ℝ} (hL : 0 < L) (hM : 0 ≤ M) (p : OPSParams)
    (hp : p.LifetimeTame)
    (he : ∀ k : K3, k.k1 ≠ 0 → K.eval k = shearKernel L M k (eddyLifetime p.hyp p.ty p.L p.T k))
    (he0 : ∀ k : K3, k.k1 = 0 → ∃ b : ℝ, K.eval k = shearKernel L M k (fin b)) :
    CovarianceLimit K fun k1 k2 k3 i j =>
      shearedTensor (vkE L M) ![k1, k2, k3] (eddyLifetime p.hyp p.ty p.L p.T ⟨k1, k2, k3⟩).toReal i j := by
  have hpole := shear_pole hL hM p hp he he0
  obtain ⟨b, hb, eb, hgrow⟩ := hp
  refine covarianceLimit_of hK (fun k1 k2 k3 h i j => ?_) (fun i j => ?_) ?_
  · have hb' := eb (k1, k2, k3) h
    simp only at hb'
    rw [he _ h, hb', toReal_fin]
    have := congrFun (congrFun (C14_kernel_square hL hM (k := ⟨k1, k2, k3⟩) h (b (k1, k2, k3))) i) j
    simp only [Matrix.map_apply] at this
    exact this
  · rw [continuousOn_iff_continuous_restrict]
    have hc := contJ_sheared (α := {q : ℝ × ℝ × ℝ | q.1 ≠ 0}) (k1 := fun q => q.1.1) (k2 := fun q => q.1.2.1)
      (k3 := fun q => q.1.2.2) (b := fun q => b q.1) (fun q => q.2) (by fun_prop) (by fun_prop) (by fun_prop)
      (continuousOn_iff_continuous_restrict.1 hb) (energyOf_cont hL M .vkLike) i j
    have e : (fun q : {q : ℝ × ℝ × ℝ | q.1 ≠ 0} => shearedTensor (vkE L M) ![q.1.1, q.1.2.1, q.1.2.2]
          (eddyLifetime p.hyp p.ty p.L p.T ⟨q.1.1, q.1.2.1, q.1.2.2⟩).toReal i j) =
        fun q : {q : ℝ × ℝ × ℝ | q.1 ≠ 0} =>
          shearedTensor (Spec.energyOf L M .vkLike) (K3.vec ⟨q.1.1, q.1.2.1, q.1.2.2⟩) (b q.1) i j := by
      funext q
      rw [eb q.1 q.2, toReal_fin]
      rfl
    change Continuous fun q : {q : ℝ × ℝ × ℝ | q.1 ≠ 0} => shearedTensor (vkE L M) ![q.1.1, q.1.2.1, q.1.2.2]
          (eddyLifetime p.hyp p.ty p.L p.T ⟨q.1.1, q.1.2.1, q.1.2.2⟩).toReal i j
    rw [e]
    exact hc
  · exact hpole

theorem mann_tame (p : OPSParams) (hy : IsMannHyp p.hyp) (ht : p.ty = .mann) : p.LifetimeTame := by
  have hx : ∀ q : ℝ × ℝ × ℝ, q.1 ≠ 0 → 0 < p.L * Real.sqrt (kkR ⟨q.1, q.2.1, q.2.2⟩) := fun q h =>
    mul_pos p.L_pos (Real.sqrt_pos.2 (kkR_pos (k := ⟨q.1, q.2.1, q.2.2⟩) h))
  have hc : Continuous fun q : ℝ × ℝ × ℝ => p.L * Real.sqrt (kkR ⟨q.1, q.2.1, q.2.2⟩) := by
    unfold kkR; fun_prop
  have hτ : ContinuousOn (mannTau p.hyp) (Set.Ioi 0) := by
    intro x hx
    have hx : 0 < x := hx
    refine ContinuousAt.continuousWithinAt ?_
    unfold mannTau
    refine ContinuousAt.div (Real.continuousAt_rpow_const _ _ (Or.inl hx.ne')) ?_
      (Real.sqrt_pos.2 (hy.mann_hyp_pos (neg_rpow_nonpos hx))).ne'
    refine ContinuousAt.sqrt ?_
    have h1 : ContinuousAt p.hyp (-(x ^ (-2 : ℝ))) := (hy.analytic _ (neg_rpow_nonpos hx)).continuousAt
    exact ContinuousAt.comp (f := fun x : ℝ => -(x ^ (-2 : ℝ))) h1
      (Real.continuousAt_rpow_const _ _ (Or.inl hx.ne')).neg
  refine ⟨fun q => p.T * mannTau p.hyp (p.L * Real.sqrt (kkR ⟨q.1, q.2.1, q.2.2⟩)), ?_, ?_, ?_⟩
  · exact continuousOn_const.mul (hτ.comp hc.continuousOn fun q hq => hx q hq)
  · intro q hq
    unfold eddyLifetime
    rw [ht]
    have hn : vecNorm [q.1, q.2.1, q.2.2] = Real.sqrt (kkR ⟨q.1, q.2.1, q.2.2⟩) := vecNorm_kkR ⟨q.1, q.2.1, q.2.2⟩
    simp only [hn, fin_mul_fin, mannTau_eq hy (hx q hq)]
  · intro R
    have hR : ∀ q : ℝ × ℝ × ℝ, ‖q‖ ≤ R → Real.sqrt (kkR ⟨q.1, q.2.1, q.2.2⟩) ≤ 2 * R := by
      intro q hq
      obtain ⟨g1, g2, g3⟩ := norm3_ge q
      exact kkR_le_of (k := ⟨q.1, q.2.1, q.2.2⟩) (g1.trans hq) (g2.trans hq) (g3.trans hq)
    obtain ⟨x', hx'⟩ : ∃ x', x' = p.L * (2 * |R| + 1) := ⟨_, rfl⟩
    refine ⟨p.T / p.L * (x' * mannTau p.hyp x'), fun q hq hn => ?_⟩
    have h0 := hx q hq
    obtain ⟨x, hxe⟩ : ∃ x, x = p.L * Real.sqrt (kkR ⟨q.1, q.2.1, q.2.2⟩) := ⟨_, rfl⟩
    beta_reduce
    rw [← hxe] at h0 ⊢
    have hlt : x < x' := by
      rw [hxe, hx']
      refine mul_lt_mul_of_pos_left ?_ p.L_pos
      have := hR q hn
      linarith [le_abs_self R]
    obtain ⟨τ, τ', e1, e2, -, -, -, hm, -⟩ := C90_slopes hy h0 hlt
    rw [mannTau_eq hy h0] at e1
    rw [mannTau_eq hy (h0.trans hlt)] at e2
    have e1 : mannTau p.hyp x = τ := by injection e1
    have e2 : mannTau p.hyp x' = τ' := by injection e2
    have hpos := mannTau_pos hy h0
    rw [abs_of_pos (mul_pos p.T_pos hpos), e2]
    rw [e1] at hpos ⊢
    have : p.T * τ * Real.sqrt (kkR ⟨q.1, q.2.1, q.2.2⟩) = p.T / p.L * (x * τ) := by
      rw [hxe]
      have := p.L_pos.ne'
      field_simp
    rw [this]
    have t0 : 0 < p.T / p.L := div_pos p.T_pos p.L_pos
    exact mul_le_mul_of_nonneg_left hm.le t0.le

/-- **C132** Fields of the Mann generator: the tensor that the fitter, with the same length, magnitude and time scales and the
Mann lifetime, stands for. -/
theorem C132_mann (p : OPSParams) (hy : IsMannHyp p.hyp) (ht : p.ty = .mann) (hs : p.sp = .vkLike) :
    CovarianceLimit (.mann p.hyp p.L p.M p.T) (Spec.fitTensor p) := by
  have hh : ∀ x < 0, 0 < p.hyp x := fun x hx => IsHyp2F1.mann_hyp_pos hy hx.le
  have hK : (GenKernel.mann p.hyp p.L p.M p.T).Valid := ⟨p.L_pos, (Real.exp_pos _).le, hh⟩
  have h := shear_covariance hK p.L_pos (Real.exp_pos p.logM).le p (mann_tame p hy ht) (fun k hk => ?_) (fun k _ => ?_)
  · have e : (fun k1 k2 k3 i j => shearedTensor (vkE p.L (Real.exp p.logM)) ![k1, k2, k3]
        (eddyLifetime p.hyp p.ty p.L p.T ⟨k1, k2, k3⟩).toReal i j) = Spec.fitTensor p := by
      funext k1 k2 k3 i j
      unfold Spec.fitTensor
      rw [hs]
      rfl
    rw [← e]
    exact h
  · have hv : k.vec ≠ 0 := fun h0 => hk (by
      have := congrFun h0 0
      simpa [K3.vec] using this)
    rw [ht, ← C03_mann_lifetime_agrees p.hyp p.L_pos p.T hv]
    rfl
  · exact ⟨_, by
      change shearKernel _ _ k (mannBeta p.hyp p.L p.T k) = _
      rw [mannBeta_eq p.T p.L_pos hh]
      rfl⟩

/-! ### Networks -/

/-- The network's modulus does not fall below a multiple of the modulus of its input, as for a network whose last layer is
small, or the exponent is at least `2/3`: the lifetimes grow at most like the inverse modulus at small wavevectors. -/
def Spec.NetTame (net : TauNet) : Prop :=
  (2 / 3 ≤ net.nu ∧ net.Nondegenerate) ∨
  (-1 / 3 ≤ net.nu ∧ ∃ c > 0, ∀ x y z : ℝ, c * vecNorm [x, y, z] ≤ vecNorm (net.mlpForward ([x, y, z].map fun t => |t|)))

theorem NetTame.nondegenerate {net : TauNet} (h : Spec.NetTame net) : net.Nondegenerate := by
  rcases h with ⟨-, h⟩ | ⟨-, c, hc, h⟩
  · exact h
  · intro x y z hne h0
    have h1 := h x y z
    have e : vecNorm (net.mlpForward ([x, y, z].map fun t => |t|)) = 0 := h0
    rw [e] at h1
    have h2 : vecNorm [x, y, z] = Real.sqrt (kkR ⟨x, y, z⟩) := vecNorm_kkR ⟨x, y, z⟩
    have h3 : Real.sqrt (kkR ⟨x, y, z⟩) ≤ 0 := by
      rw [h2] at h1
      nlinarith [Real.sqrt_nonneg (kkR ⟨x, y, z⟩)]
    have h4 : kkR ⟨x, y, z⟩ ≤ 0 := Real.sqrt_eq_zero'.1 (le_antisymm h3 (Real.sqrt_nonneg _))
    unfold kkR at h4
    simp only at h4
    apply hne
    refine ⟨?_, ?_, ?_⟩ <;> nlinarith [sq_nonneg x, sq_nonneg y, sq_nonneg z]

/-- The rational factor, times the modulus if the exponent is below `2/3`. -/
theorem rational_le {nu m : ℝ} (hm : 0 < m) :
    (2 / 3 ≤ nu → m ^ (nu - 2 / 3) / (1 + m * m) ^ (nu / 2) ≤ 1) ∧
    (-1 / 3 ≤ nu → m ^ (nu - 2 / 3) / (1 + m * m) ^ (nu / 2) * m ≤ (1 + m * m) ^ (1 / 6 : ℝ)) := by
  have h0 : (0 : ℝ) < 1 + m * m := by positivity
  have h1 : (1 : ℝ) ≤ 1 + m * m := by nlinarith
  have hp : ∀ s : ℝ, 0 ≤ s → m ^ s ≤ (1 + m * m) ^ (s / 2) := by
    intro s hs
    have e : m ^ s = (m * m) ^ (s / 2) := by
      rw [← pow_two, ← Real.rpow_natCast m 2, ← Real.rpow_mul hm.le]
      congr 1
      push_cast
      ring
    rw [e]
    exact Real.rpow_le_rpow (by positivity) (by linarith) (by linarith)
  have hd := Real.rpow_pos_of_pos h0 (nu / 2)
  constructor
  · intro h
    rw [div_le_one hd]
    exact (hp _ (by linarith)).trans (Real.rpow_le_rpow_of_exponent_le h1 (by linarith))
  · intro h
    have e : m ^ (nu - 2 / 3) / (1 + m * m) ^ (nu / 2) * m = m ^ (nu + 1 / 3) / (1 + m * m) ^ (nu / 2) := by
      rw [div_mul_eq_mul_div]
      congr 1
      rw [show nu + 1 / 3 = (nu - 2 / 3) + 1 by ring, Real.rpow_add hm, Real.rpow_one]
    rw [e, div_le_iff₀ hd, ← Real.rpow_add h0]
    refine (hp _ (by linarith)).trans (le_of_eq ?_)
    congr 1
    ring

theorem net_tame (p : OPSParams) {net : TauNet} (ht : p.ty = .taunet net) (ha : net.ContActs) (hn : Spec.NetTame net) :
    p.LifetimeTame := by
  have hnd := NetTame.nondegenerate hn
  have hF : ContList fun q : ℝ × ℝ × ℝ => [q.1 * p.L, q.2.1 * p.L, q.2.2 * p.L].map fun t => |t| :=
    ContList.map (F := fun q : ℝ × ℝ × ℝ => [q.1 * p.L, q.2.1 * p.L, q.2.2 * p.L])
      ⟨[fun q => q.1 * p.L, fun q => q.2.1 * p.L, fun q => q.2.2 * p.L], by
        simp only [List.mem_cons, List.not_mem_nil, or_false]
        rintro f (rfl | rfl | rfl) <;> fun_prop, fun q => rfl⟩ continuous_abs
  have hm := (ContList.mlp ha hF).norm
  obtain ⟨m, hmdef⟩ : ∃ m : ℝ × ℝ × ℝ → ℝ, m = fun q =>
      vecNorm (net.mlpForward ([q.1 * p.L, q.2.1 * p.L, q.2.2 * p.L].map fun t => |t|)) := ⟨_, rfl⟩
  have hm : Continuous m := by rw [hmdef]; exact hm
  have em : ∀ q, m q = vecNorm (net.mlpForward ([q.1 * p.L, q.2.1 * p.L, q.2.2 * p.L].map fun t => |t|)) := fun q => by rw [hmdef]
  have hp : ∀ q : ℝ × ℝ × ℝ, q.1 ≠ 0 → 0 < m q := by
    intro q hq
    have hne : ¬ (q.1 * p.L = 0 ∧ q.2.1 * p.L = 0 ∧ q.2.2 * p.L = 0) := by
      rintro ⟨h1, -, -⟩
      exact (mul_ne_zero hq p.L_pos.ne') h1
    rw [em]
    exact lt_of_le_of_ne (vecNorm_nonneg _) (Ne.symm (hnd _ _ _ hne))
  have h0 : ∀ q, 0 < 1 + m q * m q := fun q => by
    have := mul_self_nonneg (m q)
    linarith
  have hv : ∀ q : ℝ × ℝ × ℝ, q.1 ≠ 0 → 0 < m q ^ (net.nu - 2 / 3) / (1 + m q * m q) ^ (net.nu / 2) := fun q hq =>
    div_pos (Real.rpow_pos_of_pos (hp q hq) _) (Real.rpow_pos_of_pos (h0 q) _)
  refine ⟨fun q => p.T * (0 + m q ^ (net.nu - 2 / 3) / (1 + m q * m q) ^ (net.nu / 2)), ?_, ?_, ?_⟩
  · refine continuousOn_const.mul (continuousOn_const.add (ContinuousOn.div
      (hm.continuousOn.rpow_const fun q hq => Or.inl (hp q hq).ne') ?_ ?_))
    · exact ((continuous_const.add (hm.mul hm)).rpow_const fun q => Or.inl (h0 q).ne').continuousOn
    · exact fun q _ => (Real.rpow_pos_of_pos (h0 q) _).ne'
  · intro q hq
    unfold eddyLifetime
    rw [ht]
    have hq' := hp q hq
    have : net.forward [q.1 * p.L, q.2.1 * p.L, q.2.2 * p.L] =
        fin (m q ^ (net.nu - 2 / 3) / (1 + m q * m q) ^ (net.nu / 2)) := by
      rw [em] at hq' ⊢
      exact rational_pos _ hq'
    simp only [this, fin_add_fin, fin_mul_fin]
  · intro R
    have hT := p.T_pos
    have hL := p.L_pos
    have hR : ∀ q : ℝ × ℝ × ℝ, ‖q‖ ≤ R → Real.sqrt (kkR ⟨q.1, q.2.1, q.2.2⟩) ≤ 2 * R := by
      intro q hq
      obtain ⟨g1, g2, g3⟩ := norm3_ge q
      exact kkR_le_of (k := ⟨q.1, q.2.1, q.2.2⟩) (g1.trans hq) (g2.trans hq) (g3.trans hq)
    rcases hn with ⟨hnu, -⟩ | ⟨hnu, c, hc, hlow⟩
    · refine ⟨p.T * (2 * R), fun q hq hqR => ?_⟩
      beta_reduce
      rw [zero_add, abs_of_pos (mul_pos hT (hv q hq))]
      have h1 := (rational_le (hp q hq)).1 hnu
      have h2 := hR q hqR
      have h3 := Real.sqrt_nonneg (kkR ⟨q.1, q.2.1, q.2.2⟩)
      rw [mul_assoc]
      refine mul_le_mul_of_nonneg_left ?_ hT.le
      have h4 := hv q hq
      nlinarith
    · obtain ⟨X, hX⟩ := (isCompact_closedBall (0 : ℝ × ℝ × ℝ) R).exists_bound_of_continuousOn
        (f := fun q => (1 + m q * m q) ^ (1 / 6 : ℝ))
        ((continuous_const.add (hm.mul hm)).rpow_const fun q => Or.inl (h0 q).ne').continuousOn
      refine ⟨p.T * (X / (c * p.L)), fun q hq hqR => ?_⟩
      beta_reduce
      rw [zero_add, abs_of_pos (mul_pos hT (hv q hq)), mul_assoc]
      refine mul_le_mul_of_nonneg_left ?_ hT.le
      rw [le_div_iff₀ (by positivity)]
      have h1 := (rational_le (hp q hq)).2 hnu
      have h2 := hX q (by rwa [mem_closedBall_zero_iff])
      rw [Real.norm_of_nonneg (Real.rpow_nonneg (h0 q).le _)] at h2
      have h3 := hlow (q.1 * p.L) (q.2.1 * p.L) (q.2.2 * p.L)
      rw [← em] at h3
      have h4 : vecNorm [q.1 * p.L, q.2.1 * p.L, q.2.2 * p.L] = p.L * Real.sqrt (kkR ⟨q.1, q.2.1, q.2.2⟩) := by
        rw [show vecNorm [q.1 * p.L, q.2.1 * p.L, q.2.2 * p.L] =
          Real.sqrt (kkR ⟨q.1 * p.L, q.2.1 * p.L, q.2.2 * p.L⟩) from vecNorm_kkR ⟨q.1 * p.L, q.2.1 * p.L, q.2.2 * p.L⟩]
        have : kkR ⟨q.1 * p.L, q.2.1 * p.L, q.2.2 * p.L⟩ = p.L ^ 2 * kkR ⟨q.1, q.2.1, q.2.2⟩ := by
          unfold kkR; ring
        rw [this, Real.sqrt_mul (by positivity), Real.sqrt_sq hL.le]
      rw [h4] at h3
      have h5 := mul_le_mul_of_nonneg_left h3 (hv q hq).le
      nlinarith

/-- **C132** Fields of the generator with the trained network: the sheared von Karman tensor of the kernel's length scale at
the lifetime `Gamma * tauNet(h_ref k)`. -/
theorem C132_nn (net : TauNet) (hn : Spec.NetTame net) (ha : net.ContActs) {L E0 Γ h : ℝ} (hL : 0 < L) (hE : 0 ≤ E0)
    (hΓ : 0 < Γ) (hh : 0 < h) (hyp : ℝ → ℝ) :
    CovarianceLimit (.nn net L E0 Γ h) fun k1 k2 k3 i j =>
      shearedTensor (vkE L E0) ![k1, k2, k3] (eddyLifetime hyp (.taunet net) h Γ ⟨k1, k2, k3⟩).toReal i j := by
  obtain ⟨p, ep⟩ : ∃ p : OPSParams, p = ⟨hyp, .taunet net, .vkLike, Real.log h, Real.log Γ, 0⟩ := ⟨_, rfl⟩
  have e1 : p.L = h := by rw [ep]; exact Real.exp_log hh
  have e2 : p.T = Γ := by rw [ep]; exact Real.exp_log hΓ
  have e3 : p.hyp = hyp := by rw [ep]
  have e4 : p.ty = .taunet net := by rw [ep]
  have hnd := NetTame.nondegenerate hn
  have hK : (GenKernel.nn net L E0 Γ h).Valid := ⟨hL, hE, hnd, hh.ne'⟩
  have hl := shear_covariance hK hL hE p (net_tame p e4 ha hn) (fun k hk => ?_) (fun k _ => ?_)
  · rw [e1, e2, e3, e4] at hl
    exact hl
  · have hv : k.vec ≠ 0 := fun h0 => hk (by
      have := congrFun h0 0
      simpa [K3.vec] using this)
    rw [e1, e2, e3, e4]
    have := C16_missing_length_scale hyp net hh.ne' Γ h hv
    rw [div_self hh.ne'] at this
    have ek : k.smul 1 = k := by simp [K3.smul]
    rw [ek] at this
    rw [← this]
    rfl
  · obtain ⟨b, hb⟩ := nnBeta_fin hnd Γ hh.ne' k
    exact ⟨b, by
      change shearKernel _ _ k (nnBeta net Γ h k) = _
      rw [hb]⟩

/-! ### What the limit says -/

/-- **C132** At one point the limit is the cell volume over `(2 pi)^3` times the integral of the tensor over the resolved
wavevectors. -/
theorem C132_variance {K : GenKernel} {Φ : ℝ → ℝ → ℝ → Fin 3 → Fin 3 → ℝ} (hK : CovarianceLimit K Φ) {h1 h2 h3 : ℝ}
    (p1 : 0 < h1) (p2 : 0 < h2) (p3 : 0 < h3) (c : ℝ) {e : ℝ} (he : 0 < e) : ∃ N : ℕ,
    ∀ (n1 n2 n3 : ℕ) [NeZero n1] [NeZero n2] [NeZero n3], N ≤ n1 → N ≤ n2 → N ≤ n3 →
    h1 * n1 ≤ c * (h2 * n2) → h1 * n1 ≤ c * (h3 * n3) →
    ∀ (Ω : Type) [MeasurableSpace Ω] (μ : Measure Ω) (ξ : Box n1 n2 n3 → Fin 3 → Ω → ℝ), WhiteNoise μ (h1 * h2 * h3) ξ →
    ∀ (x : Box n1 n2 n3) (i j : Fin 3),
      |∫ ω, vfSample (spectrumOf K.eval (h1 * n1) (h2 * n2) (h3 * n3)) (transformNorm (h1 * n1) (h2 * n2) (h3 * n3))
            (fun z l => ξ z l ω) x i *
          vfSample (spectrumOf K.eval (h1 * n1) (h2 * n2) (h3 * n3)) (transformNorm (h1 * n1) (h2 * n2) (h3 * n3))
            (fun z l => ξ z l ω) x j ∂μ -
        h1 * h2 * h3 / (2 * Real.pi) ^ 3 *
          ∫ k in Set.Ico (-(Real.pi / h1)) (Real.pi / h1) ×ˢ Set.Ico (-(Real.pi / h2)) (Real.pi / h2) ×ˢ
            Set.Ico (-(Real.pi / h3)) (Real.pi / h3), Φ k.1 k.2.1 k.2.2 i j| ≤ e := by
  obtain ⟨N, hN⟩ := hK.2 h1 h2 h3 c e p1 p2 p3 he (0, 0, 0)
  refine ⟨N, ?_⟩
  intro n1 n2 n3 _ _ _ g1 g2 g3 k2 k3 Ω _ μ ξ hξ x i j
  have h := hN n1 n2 n3 g1 g2 g3 k2 k3 Ω μ ξ hξ x x (by simp) (by simp) (by simp) i j
  have e : bandCovariance h1 h2 h3 Φ (0, 0, 0) i j = ((h1 * h2 * h3 / (2 * Real.pi) ^ 3 *
          ∫ k in Set.Ico (-(Real.pi / h1)) (Real.pi / h1) ×ˢ Set.Ico (-(Real.pi / h2)) (Real.pi / h2) ×ˢ
            Set.Ico (-(Real.pi / h3)) (Real.pi / h3), Φ k.1 k.2.1 k.2.2 i j : ℝ) : ℂ) := by
    unfold bandCovariance
    rw [Complex.ofReal_mul, ← integral_complex_ofReal]
    congr 1
    refine integral_congr_ae (Eventually.of_forall fun k => ?_)
    simp
  rw [e, ← Complex.ofReal_sub, Complex.norm_real] at h
  exact h

/-- The covariances of the limit are arbitrarily small at all displacements of enough cells in any one direction. -/
theorem bandCovariance_decay (Φ : ℝ → ℝ → ℝ → Fin 3 → Fin 3 → ℝ) {h1 h2 h3 : ℝ}
    (p1 : 0 < h1) (p2 : 0 < h2) (p3 : 0 < h3) {e : ℝ} (he : 0 < e) :
    ∃ ρ : ℝ, ∀ r : ℤ × ℤ × ℤ, (ρ ≤ |(r.1 : ℝ)| ∨ ρ ≤ |(r.2.1 : ℝ)| ∨ ρ ≤ |(r.2.2 : ℝ)|) → ∀ i j,
      ‖bandCovariance h1 h2 h3 Φ r i j‖ ≤ e := by
  have hpi := Real.pi_pos
  obtain ⟨v, hv⟩ : ∃ v, v = h1 * h2 * h3 / (2 * Real.pi) ^ 3 := ⟨_, rfl⟩
  have v0 : 0 < v := by rw [hv]; positivity
  haveI i2 : (volume : Measure (ℝ × ℝ)).IsAddHaarMeasure := Measure.prod.instIsAddHaarMeasure volume volume
  haveI i3 : (volume : Measure (ℝ × ℝ × ℝ)).IsAddHaarMeasure :=
    Measure.prod.instIsAddHaarMeasure (volume : Measure ℝ) (volume : Measure (ℝ × ℝ))
  -- one pair of components
  have key : ∀ i j : Fin 3, ∃ ρ : ℝ, ∀ r : ℤ × ℤ × ℤ, (ρ ≤ |(r.1 : ℝ)| ∨ ρ ≤ |(r.2.1 : ℝ)| ∨ ρ ≤ |(r.2.2 : ℝ)|) →
      ‖bandCovariance h1 h2 h3 Φ r i j‖ ≤ e := by
    intro i j
    obtain ⟨f, hf⟩ : ∃ f : ℝ × ℝ × ℝ → ℂ, f = (bandBox (Real.pi / h1) (Real.pi / h2) (Real.pi / h3)).indicator
      fun k => ((Φ k.1 k.2.1 k.2.2 i j : ℝ) : ℂ) := ⟨_, rfl⟩
    have hl := tendsto_integral_exp_smul_cocompact f (volume : Measure (ℝ × ℝ × ℝ))
    rw [Metric.tendsto_nhds] at hl
    have hev := hl (e / v) (by positivity)
    rw [← Metric.cobounded_eq_cocompact, (Metric.hasBasis_cobounded_compl_closedBall 0).eventually_iff] at hev
    obtain ⟨s, -, hs⟩ := hev
    obtain ⟨σ, hσ⟩ : ∃ σ, σ = 2 * Real.pi * (|s| + 1) := ⟨_, rfl⟩
    have σ0 : 0 < σ := by rw [hσ]; positivity
    refine ⟨σ / h1 + σ / h2 + σ / h3, fun r hr => ?_⟩
    obtain ⟨w, hw⟩ : ∃ w : StrongDual ℝ (ℝ × ℝ × ℝ), w =
        (-(h1 * r.1 / (2 * Real.pi))) • ContinuousLinearMap.fst ℝ ℝ (ℝ × ℝ) +
        (-(h2 * r.2.1 / (2 * Real.pi))) • (ContinuousLinearMap.fst ℝ ℝ ℝ).comp (ContinuousLinearMap.snd ℝ ℝ (ℝ × ℝ)) +
        (-(h3 * r.2.2 / (2 * Real.pi))) • (ContinuousLinearMap.snd ℝ ℝ ℝ).comp (ContinuousLinearMap.snd ℝ ℝ (ℝ × ℝ)) :=
      ⟨_, rfl⟩
    have ew : ∀ k : ℝ × ℝ × ℝ, w k = -((k.1 * (h1 * r.1) + k.2.1 * (h2 * r.2.1) + k.2.2 * (h3 * r.2.2)) / (2 * Real.pi)) := by
      intro k
      rw [hw]
      simp only [ContinuousLinearMap.add_apply, ContinuousLinearMap.smul_apply, ContinuousLinearMap.comp_apply,
        ContinuousLinearMap.coe_fst', ContinuousLinearMap.coe_snd', smul_eq_mul]
      ring
    have hbig : s < ‖w‖ := by
      have hunit : ∀ k : ℝ × ℝ × ℝ, ‖k‖ = 1 → |s| + 1 ≤ |w k| → s < ‖w‖ := by
        intro k hk h
        have := w.le_opNorm k
        rw [hk, mul_one, Real.norm_eq_abs] at this
        linarith [le_abs_self s]
      have hbd : ∀ h t : ℝ, 0 < h → σ / h ≤ |t| → |s| + 1 ≤ |-(h * t / (2 * Real.pi))| := by
        intro h t hh ht
        rw [abs_neg, abs_div, abs_mul, abs_of_pos hh, abs_of_pos (by positivity : 0 < 2 * Real.pi), le_div_iff₀ (by positivity)]
        rw [div_le_iff₀ hh] at ht
        rw [hσ] at ht
        linarith
      have g1 : 0 < σ / h1 := by positivity
      have g2 : 0 < σ / h2 := by positivity
      have g3 : 0 < σ / h3 := by positivity
      rcases hr with h | h | h
      · refine hunit (1, 0, 0) (by simp [Prod.norm_def]) ?_
        rw [ew]
        have := hbd h1 r.1 p1 (by linarith)
        simpa using this
      · refine hunit (0, 1, 0) (by simp [Prod.norm_def]) ?_
        rw [ew]
        have := hbd h2 r.2.1 p2 (by linarith)
        simpa using this
      · refine hunit (0, 0, 1) (by simp [Prod.norm_def]) ?_
        rw [ew]
        have := hbd h3 r.2.2 p3 (by linarith)
        simpa using this
    have h := hs (show w ∈ (Metric.closedBall (0 : StrongDual ℝ (ℝ × ℝ × ℝ)) s)ᶜ by
      rw [Set.mem_compl_iff, mem_closedBall_zero_iff]
      linarith)
    rw [dist_zero_right] at h
    have e1 : bandCovariance h1 h2 h3 Φ r i j = (v : ℂ) * ∫ k, Real.fourierChar (-w k) • f k := by
      unfold bandCovariance
      rw [hv]
      congr 1
      change ∫ k in bandBox (Real.pi / h1) (Real.pi / h2) (Real.pi / h3), _ = _
      rw [← integral_indicator (bandBox_meas _ _ _)]
      refine integral_congr_ae (Eventually.of_forall fun k => ?_)
      beta_reduce
      rw [hf]
      by_cases hk : k ∈ bandBox (Real.pi / h1) (Real.pi / h2) (Real.pi / h3)
      · rw [Set.indicator_of_mem hk, Set.indicator_of_mem hk, Circle.smul_def, Real.fourierChar_apply, ew, smul_eq_mul, mul_comm]
        congr 2
        have : ((2 * Real.pi * - -((k.1 * (h1 * r.1) + k.2.1 * (h2 * r.2.1) + k.2.2 * (h3 * r.2.2)) / (2 * Real.pi)) : ℝ)) =
            k.1 * (h1 * r.1) + k.2.1 * (h2 * r.2.1) + k.2.2 * (h3 * r.2.2) := by
          field_simp
        rw [this, mul_comm]
      · rw [Set.indicator_of_notMem hk, Set.indicator_of_notMem hk, smul_zero]
    rw [e1, norm_mul, Complex.norm_real, Real.norm_of_nonneg v0.le]
    rw [lt_div_iff₀ v0] at h
    rw [mul_comm]
    exact h.le
  choose ρ hρ using key
  refine ⟨∑ i, ∑ j, |ρ i j|, fun r hr i j => hρ i j r ?_⟩
  have hle : ρ i j ≤ ∑ i, ∑ j, |ρ i j| := (le_abs_self _).trans
    ((Finset.single_le_sum (f := fun j => |ρ i j|) (fun _ _ => abs_nonneg _) (Finset.mem_univ j)).trans
      (Finset.single_le_sum (f := fun i => ∑ j, |ρ i j|) (fun _ _ => Finset.sum_nonneg fun _ _ => abs_nonneg _) (Finset.mem_univ i)))
  rcases hr with h | h | h
  · exact Or.inl (hle.trans h)
  · exact Or.inr (Or.inl (hle.trans h))
  · exact Or.inr (Or.inr (hle.trans h))

/-- **C132** Points far apart are uncorrelated: for every tolerance there is a number of cells such that, at any displacement
of that many cells or more in some direction, the covariances are below the tolerance in all large enough boxes. -/
theorem C132_decay {K : GenKernel} {Φ : ℝ → ℝ → ℝ → Fin 3 → Fin 3 → ℝ} (hK : CovarianceLimit K Φ) {h1 h2 h3 : ℝ}
    (p1 : 0 < h1) (p2 : 0 < h2) (p3 : 0 < h3) (c : ℝ) {e : ℝ} (he : 0 < e) :
    ∃ ρ : ℝ, ∀ r : ℤ × ℤ × ℤ, (ρ ≤ |(r.1 : ℝ)| ∨ ρ ≤ |(r.2.1 : ℝ)| ∨ ρ ≤ |(r.2.2 : ℝ)|) → ∃ N : ℕ,
    ∀ (n1 n2 n3 : ℕ) [NeZero n1] [NeZero n2] [NeZero n3], N ≤ n1 → N ≤ n2 → N ≤ n3 →
    h1 * n1 ≤ c * (h2 * n2) → h1 * n1 ≤ c * (h3 * n3) →
    ∀ (Ω : Type) [MeasurableSpace Ω] (μ : Measure Ω) (ξ : Box n1 n2 n3 → Fin 3 → Ω → ℝ), WhiteNoise μ (h1 * h2 * h3) ξ →
    ∀ x y : Box n1 n2 n3, (x.1.val : ℤ) - y.1.val = r.1 → (x.2.1.val : ℤ) - y.2.1.val = r.2.1 →
      (x.2.2.val : ℤ) - y.2.2.val = r.2.2 → ∀ i j,
      |∫ ω, vfSample (spectrumOf K.eval (h1 * n1) (h2 * n2) (h3 * n3)) (transformNorm (h1 * n1) (h2 * n2) (h3 * n3))
            (fun z l => ξ z l ω) x i *
          vfSample (spectrumOf K.eval (h1 * n1) (h2 * n2) (h3 * n3)) (transformNorm (h1 * n1) (h2 * n2) (h3 * n3))
            (fun z l => ξ z l ω) y j ∂μ| ≤ e := by
  obtain ⟨ρ, hρ⟩ := bandCovariance_decay Φ p1 p2 p3 (half_pos he)
  refine ⟨ρ, fun r hr => ?_⟩
  obtain ⟨N, hN⟩ := hK.2 h1 h2 h3 c (e / 2) p1 p2 p3 (half_pos he) r
  refine ⟨N, ?_⟩
  intro n1 n2 n3 _ _ _ g1 g2 g3 k2 k3 Ω _ μ ξ hξ x y x1 x2 x3 i j
  have h := hN n1 n2 n3 g1 g2 g3 k2 k3 Ω μ ξ hξ x y x1 x2 x3 i j
  have h' := hρ r hr i j
  rw [← Real.norm_eq_abs, ← Complex.norm_real]
  refine (norm_le_norm_sub_add _ (bandCovariance h1 h2 h3 Φ r i j)).trans ?_
  linarith

/-- A kernel and tensor with the limit. -/
example : ∃ (K : GenKernel) (Φ : ℝ → ℝ → ℝ → Fin 3 → Fin 3 → ℝ), CovarianceLimit K Φ := ⟨_, _, C132_vk (L := 30) (E0 := 2) (by norm_num) (by norm_num)⟩

/-- Boxes of the shapes that the limit is about: `n` points in every direction, for any spacings. -/
example {h1 h2 h3 : ℝ} (p1 : 0 < h1) (p2 : 0 < h2) (p3 : 0 < h3) : ∃ c, ∀ n : ℕ, h1 * n ≤ c * (h2 * n) ∧ h1 * n ≤ c * (h3 * n) := by
  refine ⟨h1 / h2 + h1 / h3, fun n => ?_⟩
  have e2 : (h1 / h2 + h1 / h3) * (h2 * n) = h1 * n + h1 / h3 * (h2 * n) := by field_simp
  have e3 : (h1 / h2 + h1 / h3) * (h3 * n) = h1 * n + h1 / h2 * (h3 * n) := by field_simp; ring
  rw [e2, e3]
  have g2 : 0 ≤ h1 / h3 * (h2 * n) := by positivity
  have g3 : 0 ≤ h1 / h2 * (h3 * n) := by positivity
  exact ⟨by linarith, by linarith⟩

/-- Networks of the theorem: zero weights at the default exponent. -/
example : Spec.NetTame (idNet (-1 / 3)) ∧ (idNet (-1 / 3)).ContActs := by
  refine ⟨Or.inr ⟨le_refl _, 1, one_pos, fun x y z => ?_⟩, ?_⟩
  · simp only [List.map_cons, List.map_nil, idNet_mlp, one_mul]
    simp [vecNorm]
  · intro φ hφ
    simp only [idNet, List.mem_singleton] at hφ
    exact ⟨fun t => max t 0, by fun_prop, hφ⟩

/-- Scales and hypergeometric function of `C132_mann`. -/
example : ∃ p : OPSParams, IsMannHyp p.hyp ∧ p.ty = .mann ∧ p.sp = .vkLike := by
  obtain ⟨hyp, h⟩ := exists_isMannHyp
  exact ⟨⟨hyp, .mann, .vkLike, 1, 2, 3⟩, h, rfl, rfl⟩

end
end Verif
