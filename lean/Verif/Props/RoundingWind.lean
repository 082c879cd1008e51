import Verif.Model.RoundedWind
import Verif.Props.RoundingShear
import Verif.Props.RoundingBlock
import Verif.Props.GeneratorLaw
import Verif.Props.FieldDivergence

/-!
# C145: the array returned by `generate` in floating point arithmetic
-/

namespace Verif
open Fl

noncomputable section

/-! ### Normalising a block and adding a profile -/

section norms
variable {ι : Type*} [Fintype ι]

theorem one_norm (f : ι → ℝ) : Real.sqrt (∑ i, f i ^ 2) = wnorm (fun _ => (1 : ℝ)) f := by
  unfold wnorm; simp

/-- Relative errors of the entries. -/
theorem near_norm {f g : ι → ℝ} {a : ℝ} (h : ∀ i, LogNear a (f i) (g i)) :
    wnorm (fun _ => (1 : ℝ)) (fun i => g i - f i) ≤ (Real.exp a - 1) * wnorm (fun _ => (1 : ℝ)) f ∧
    wnorm (fun _ => (1 : ℝ)) g ≤ Real.exp a * wnorm (fun _ => (1 : ℝ)) f := by
  have hs : ∀ (c : ℝ) (f : ι → ℝ), 0 ≤ c → wnorm (fun _ => (1 : ℝ)) (fun i => c * f i) = c * wnorm (fun _ => (1 : ℝ)) f := by
    intro c f hc
    unfold wnorm
    rw [show (∑ i, 1 * ‖c * f i‖ ^ 2) = c ^ 2 * ∑ i, 1 * ‖f i‖ ^ 2 by
      rw [Finset.mul_sum]
      refine Finset.sum_congr rfl fun i _ => ?_
      rw [norm_mul, Real.norm_eq_abs c, mul_pow, sq_abs]; ring]
    rw [Real.sqrt_mul (sq_nonneg c), Real.sqrt_sq hc]
  have h1 : wnorm (fun _ => (1 : ℝ)) (fun i => g i - f i) ≤ (Real.exp a - 1) * wnorm (fun _ => (1 : ℝ)) f := by
    rcases isEmpty_or_nonempty ι with hι | ⟨⟨i0⟩⟩
    · unfold wnorm; simp
    have a0 := (h i0).nonneg
    have c0 : 0 ≤ Real.exp a - 1 := by linarith [Real.one_le_exp a0]
    rw [← hs _ _ c0]
    refine wnorm_mono (fun _ => zero_le_one) fun i => ?_
    rw [Real.norm_eq_abs, norm_mul, Real.norm_eq_abs (Real.exp a - 1), abs_of_nonneg c0, mul_comm, Real.norm_eq_abs]
    exact (h i).sub_le
  refine ⟨h1, ?_⟩
  have := wnorm_le_add (w := fun _ : ι => (1 : ℝ)) (fun _ => zero_le_one) g f
  linarith

/-- `_normalize_block` with rounding: `y` is a computed block within `Δ` of the exact block `w`. -/
theorem wind_error (A : Fmt) {w y m m' out : ι → ℝ} {Δ U P s : ℝ} {d : ℕ} (hΔ : Real.sqrt (∑ i, (y i - w i) ^ 2) ≤ Δ)
    (hw : ∃ i, w i ≠ 0) (hy : ∃ i, y i ≠ 0) (hs : A.SdOf ((Finset.univ : Finset ι).toList.map y) s d)
    (ho : ∀ i, out i = A.add (A.div (y i) s) (m' i)) (hU : ∀ i, |m i| ≤ U)
    (hP : ∀ i, |m' i - m i| ≤ P) :
    Real.sqrt (∑ i, (out i - (w i / Real.sqrt ((∑ i, w i ^ 2) / Fintype.card ι) + m i)) ^ 2) ≤
      Real.sqrt (Fintype.card ι) * ((Real.exp ((d / 2 + 4) * A.e) - 1) + (Real.exp A.e - 1) * U + Real.exp A.e * P) +
        2 * Δ / Real.sqrt ((∑ i, w i ^ 2) / Fintype.card ι) := by
  have e0 := A.e_nonneg
  have w1 : ∀ _ : ι, (0 : ℝ) ≤ 1 := fun _ => zero_le_one
  obtain ⟨i0, hi0⟩ := hw
  have hN : (0 : ℝ) < Fintype.card ι := by exact_mod_cast Fintype.card_pos_iff.2 ⟨i0⟩
  have rms : ∀ f : ι → ℝ, (∃ i, f i ≠ 0) → 0 < Real.sqrt ((∑ i, f i ^ 2) / Fintype.card ι) := by
    rintro f ⟨i, hi⟩
    refine Real.sqrt_pos.2 (div_pos ?_ hN)
    exact lt_of_lt_of_le (by positivity) (Finset.single_le_sum (f := fun i => f i ^ 2) (fun i _ => sq_nonneg _) (Finset.mem_univ i))
  have hσ := rms w ⟨i0, hi0⟩
  have hσ' := rms y hy
  have hnorm := C141_normalised hΔ hσ hσ'
  obtain ⟨σ, hσd⟩ : ∃ σ, σ = Real.sqrt ((∑ i, w i ^ 2) / Fintype.card ι) := ⟨_, rfl⟩
  obtain ⟨σ', hσd'⟩ : ∃ σ', σ' = Real.sqrt ((∑ i, y i ^ 2) / Fintype.card ι) := ⟨_, rfl⟩
  rw [← hσd] at hnorm hσ ⊢
  rw [← hσd'] at hnorm hσ'
  obtain ⟨R, hR⟩ : ∃ R, R = Real.sqrt (Fintype.card ι) := ⟨_, rfl⟩
  rw [← hR]
  have R0 : 0 ≤ R := by rw [hR]; exact Real.sqrt_nonneg _
  -- the computed root mean square
  have n1 : LogNear ((d / 2 + 2) * A.e) σ' s := by
    have h := sdOf_near hs
    rw [List.length_map, Finset.length_toList, Finset.card_univ, List.map_map, Finset.sum_map_toList] at h
    rw [hσd']
    exact h.mono (le_of_eq (by ring))
  -- the computed quotients
  have n2 : ∀ i, LogNear ((d / 2 + 3) * A.e) (y i / σ') (A.div (y i) s) := fun i =>
    (A.div_near (LogNear.refl (y i)) n1).mono (le_of_eq (by ring))
  obtain ⟨q, hq⟩ : ∃ q : ι → ℝ, q = fun i => A.div (y i) s := ⟨_, rfl⟩
  have n2' : ∀ i, LogNear ((d / 2 + 3) * A.e) (y i / σ') (q i) := by rw [hq]; exact n2
  obtain ⟨b1, b2⟩ := near_norm n2'
  have hyn : wnorm (fun _ => (1 : ℝ)) (fun i => y i / σ') = R := by
    rw [← one_norm]
    rw [show (∑ i, (y i / σ') ^ 2) = (∑ i, y i ^ 2) / σ' ^ 2 by
      rw [Finset.sum_div]; exact Finset.sum_congr rfl fun i _ => div_pow _ _ _]
    have : σ' ^ 2 = (∑ i, y i ^ 2) / Fintype.card ι := by
      rw [hσd']; exact Real.sq_sqrt (div_nonneg (Finset.sum_nonneg fun i _ => sq_nonneg _) hN.le)
    have hpos : 0 < ∑ i, y i ^ 2 := by
      have : 0 < σ' ^ 2 := by positivity
      rw [‹σ' ^ 2 = _›] at this
      exact (div_pos_iff_of_pos_right hN).1 this
    rw [this, div_div_cancel₀ hpos.ne', hR]
  rw [hyn] at b1 b2
  -- sup bounds
  have sup : ∀ (f : ι → ℝ) (c : ℝ), (∀ i, |f i| ≤ c) → wnorm (fun _ => (1 : ℝ)) f ≤ R * c := by
    intro f c hf
    have c0 : 0 ≤ c := (abs_nonneg _).trans (hf i0)
    refine wnorm_le_of_sq (by positivity) ?_
    rw [mul_pow, hR, Real.sq_sqrt hN.le]
    calc ∑ i, 1 * ‖f i‖ ^ 2 ≤ ∑ _i : ι, c ^ 2 := Finset.sum_le_sum fun i _ => by
          rw [one_mul]; exact pow_le_pow_left₀ (norm_nonneg _) (hf i) 2
      _ = Fintype.card ι * c ^ 2 := by rw [Finset.sum_const, Finset.card_univ, nsmul_eq_mul]
  have m1 := sup _ _ hP
  have m2 := sup _ _ hU
  have m3 : wnorm (fun _ => (1 : ℝ)) m' ≤ R * P + R * U := (wnorm_le_add w1 m' m).trans (add_le_add m1 m2)
  -- the last addition
  have n3 : ∀ i, LogNear A.e (q i + m' i) (out i) := fun i => by
    rw [ho i, hq]; exact A.rnd_near _
  obtain ⟨b3, -⟩ := near_norm n3
  have m4 := wnorm_add_le w1 q m'
  rw [one_norm]
  have t1 := wnorm_le_add w1 (fun i => out i - (w i / σ + m i)) (fun i => out i - (q i + m' i))
  have t2 := wnorm_le_add w1 (fun i => q i + m' i - (w i / σ + m i)) (fun i => q i - y i / σ')
  have t3 := wnorm_le_add w1 (fun i => y i / σ' + m' i - (w i / σ + m i)) (fun i => m' i - m i)
  have r1 : (fun i => out i - (w i / σ + m i) - (out i - (q i + m' i))) = fun i => q i + m' i - (w i / σ + m i) := by
    funext i; ring
  have r2 : (fun i => q i + m' i - (w i / σ + m i) - (q i - y i / σ')) = fun i => y i / σ' + m' i - (w i / σ + m i) := by
    funext i; ring
  have r3 : (fun i => y i / σ' + m' i - (w i / σ + m i) - (m' i - m i)) = fun i => y i / σ' - w i / σ := by
    funext i; ring
  rw [r1] at t1
  rw [r2] at t2
  rw [r3] at t3
  rw [one_norm] at hnorm
  obtain ⟨E, hE⟩ : ∃ E, E = Real.exp ((d / 2 + 3) * A.e) := ⟨_, rfl⟩
  have hE4 : Real.exp ((d / 2 + 4) * A.e) = Real.exp A.e * E := by
    rw [hE, ← Real.exp_add]; congr 1; ring
  rw [← hE] at b1 b2
  rw [hE4]
  have x0 : 0 ≤ Real.exp A.e - 1 := by linarith [Real.one_le_exp e0]
  have b4 := mul_le_mul_of_nonneg_left (m4.trans (add_le_add b2 m3)) x0
  obtain ⟨x, hx⟩ : ∃ x, x = Real.exp A.e := ⟨_, rfl⟩
  rw [← hx] at b3 b4 ⊢
  have fin' : (E - 1) * R + 2 * Δ / σ + R * P + (x - 1) * (E * R + (R * P + R * U)) =
      R * (x * E - 1 + (x - 1) * U + x * P) + 2 * Δ / σ := by ring
  linarith only [t1, t2, t3, hnorm, b1, b3, b4, m1, fin']

end norms

/-! ### The sampled block from perturbed noise -/

section sampler
variable {n1 n2 n3 : ℕ} [NeZero n1] [NeZero n2] [NeZero n3]

/-- An error of `TransformNorm` is an error of the last division. -/
theorem VfRounded.norm_near {Sh : Box n1 n2 n3 → Matrix (Fin 3) (Fin 3) ℂ} {norm norm' : ℝ} {noise y : Box n1 n2 n3 → Fin 3 → ℝ}
    {η ε ν t : ℝ} (hν : 0 ≤ ν) (ht : LogNear t norm norm') (h : VfRounded Sh norm' noise η ε ν y) :
    VfRounded Sh norm noise η ε ((1 + ν) * Real.exp t - 1) y := by
  obtain ⟨h', g, z, h1, h2, h3, h4⟩ := h
  refine ⟨h', g, z, h1, h2, h3, fun x i => ?_⟩
  have n1 : LogNear t (z x i / norm) (z x i / norm') := by
    have := (LogNear.refl (z x i)).div ht
    rwa [zero_add] at this
  have n2 := n1.sub_le
  have n3 := abs_sub_abs_le_abs_sub (z x i / norm') (z x i / norm)
  have n4 := abs_sub_le (y x i) (z x i / norm') (z x i / norm)
  obtain ⟨q, hq⟩ : ∃ q, q = |z x i / norm| := ⟨_, rfl⟩
  rw [← hq] at n2 n3 ⊢
  have n5 : |z x i / norm'| ≤ Real.exp t * q := by linarith
  have n6 := mul_le_mul_of_nonneg_left n5 hν
  have := h4 x i
  linarith only [n2, n4, n6, this]

/-- The gain of the exact sampler. -/
theorem vf_gain {S : Box n1 n2 n3 → Matrix (Fin 3) (Fin 3) ℂ} {norm M : ℝ} (hM : 0 ≤ M) (hS : ∀ k, ∑ i, ∑ l, ‖S k i l‖ ^ 2 ≤ M ^ 2)
    (noise : Box n1 n2 n3 → Fin 3 → ℝ) :
    Real.sqrt (∑ x, ∑ i, vfSample S norm noise x i ^ 2) ≤
      M * Real.sqrt (∑ x, ∑ i, noise x i ^ 2) / (|norm| / Real.sqrt (voxels n1 n2 n3)) := by
  have hy : VfRounded (spectrumHalf S) norm noise 0 0 0
      (fun x i => irfftn (fun k => ∑ l, spectrumHalf S k i l * fftn (fun x => (noise x l : ℂ)) k) x / norm) := by
    refine ⟨fun k l => fftn (fun x => (noise x l : ℂ)) k, fun k i => ∑ l, spectrumHalf S k i l * fftn (fun x => (noise x l : ℂ)) k,
      fun x i => irfftn (fun k => ∑ l, spectrumHalf S k i l * fftn (fun x => (noise x l : ℂ)) k) x, ?_, ?_, ?_, ?_⟩
    · simp [halfEnergy]
    · intro k i; simp
    · simp
    · intro x i; simp
  exact (C141_field le_rfl le_rfl le_rfl le_rfl hM hS (fun k => by simp) hy).1

/-- The sampler applied to noise with relative errors. -/
theorem vf_noise {S : Box n1 n2 n3 → Matrix (Fin 3) (Fin 3) ℂ} {norm M : ℝ} (hM : 0 ≤ M)
    (hS : ∀ k, ∑ i, ∑ l, ‖S k i l‖ ^ 2 ≤ M ^ 2) {noise noise' y : Box n1 n2 n3 → Fin 3 → ℝ} {F t : ℝ} (hF : 1 ≤ F)
    (hn : ∀ x l, LogNear t (noise x l) (noise' x l))
    (hy : Real.sqrt (∑ x, ∑ i, (y x i - vfSample S norm noise' x i) ^ 2) ≤
      (F - 1) * (M * Real.sqrt (∑ x, ∑ i, noise' x i ^ 2) / (|norm| / Real.sqrt (voxels n1 n2 n3)))) :
    Real.sqrt (∑ x, ∑ i, (y x i - vfSample S norm noise x i) ^ 2) ≤
      (F * Real.exp t - 1) * (M * Real.sqrt (∑ x, ∑ i, noise x i ^ 2) / (|norm| / Real.sqrt (voxels n1 n2 n3))) := by
  have hg := vf_gain (norm := norm) hM hS fun x l => noise' x l - noise x l
  have hlin : ∀ x i, vfSample S norm (fun x l => noise' x l - noise x l) x i = vfSample S norm noise' x i - vfSample S norm noise x i := by
    intro x i
    obtain ⟨c, hc⟩ := vfSample_coeff S norm x i
    rw [hc, hc, hc, ← Finset.sum_sub_distrib]
    exact Finset.sum_congr rfl fun w _ => by ring
  simp only [hlin] at hg
  have pr : ∀ f : Box n1 n2 n3 → Fin 3 → ℝ, Real.sqrt (∑ x, ∑ i, f x i ^ 2) =
      wnorm (fun _ : Box n1 n2 n3 × Fin 3 => (1 : ℝ)) fun p => f p.1 p.2 := by
    intro f
    rw [← one_norm]
    congr 1
    exact (Fintype.sum_prod_type (f := fun p : Box n1 n2 n3 × Fin 3 => f p.1 p.2 ^ 2)).symm
  obtain ⟨b1, b2⟩ := near_norm (f := fun p : Box n1 n2 n3 × Fin 3 => noise p.1 p.2) (g := fun p => noise' p.1 p.2) (a := t)
    fun p => hn p.1 p.2
  rw [pr fun x i => noise' x i - noise x i] at hg
  rw [pr noise'] at hy
  rw [pr noise]
  obtain ⟨N, hN⟩ : ∃ N, N = wnorm (fun _ : Box n1 n2 n3 × Fin 3 => (1 : ℝ)) fun p => noise p.1 p.2 := ⟨_, rfl⟩
  rw [← hN] at b1 b2 ⊢
  rw [pr] at hg hy ⊢
  have tri := wnorm_le_add (w := fun _ : Box n1 n2 n3 × Fin 3 => (1 : ℝ)) (fun _ => zero_le_one)
    (fun p : Box n1 n2 n3 × Fin 3 => y p.1 p.2 - vfSample S norm noise p.1 p.2)
    (fun p => vfSample S norm noise' p.1 p.2 - vfSample S norm noise p.1 p.2)
  have e1 : (fun p : Box n1 n2 n3 × Fin 3 => y p.1 p.2 - vfSample S norm noise p.1 p.2 -
      (vfSample S norm noise' p.1 p.2 - vfSample S norm noise p.1 p.2)) = fun p => y p.1 p.2 - vfSample S norm noise' p.1 p.2 := by
    funext p; ring
  rw [e1] at tri
  obtain ⟨W, hW⟩ : ∃ W, W = |norm| / Real.sqrt (voxels n1 n2 n3 : ℝ) := ⟨_, rfl⟩
  rw [← hW] at hg hy ⊢
  have W0 : 0 ≤ W := by rw [hW]; positivity
  have c1 : M * wnorm (fun _ : Box n1 n2 n3 × Fin 3 => (1 : ℝ)) (fun p => noise' p.1 p.2 - noise p.1 p.2) / W ≤
      M * ((Real.exp t - 1) * N) / W := div_le_div_of_nonneg_right (mul_le_mul_of_nonneg_left b1 hM) W0
  have c2 : (F - 1) * (M * wnorm (fun _ : Box n1 n2 n3 × Fin 3 => (1 : ℝ)) (fun p => noise' p.1 p.2) / W) ≤
      (F - 1) * (M * (Real.exp t * N) / W) :=
    mul_le_mul_of_nonneg_left (div_le_div_of_nonneg_right (mul_le_mul_of_nonneg_left b2 hM) W0) (by linarith)
  have c3 : M * ((Real.exp t - 1) * N) / W + (F - 1) * (M * (Real.exp t * N) / W) = (F * Real.exp t - 1) * (M * N / W) := by ring
  linarith only [tri, hg, hy, c1, c2, c3]

end sampler

/-! ### C145 -/

/-- Distinct cells of a block are distinct points of the sampled box. -/
theorem crop_le {g : Gen} (hg : g.Good) [NeZero g.shape1.toNat] [NeZero g.shape2.toNat] [NeZero g.shape3.toNat]
    (F : Box g.shape1.toNat g.shape2.toNat g.shape3.toNat → Fin 3 → ℝ) (h0 : ∀ x i, 0 ≤ F x i) :
    ∑ x : g.Cell, F (((g.nb.toNat + x.1 : ℕ) : ZMod _), ((g.my.toNat + x.2.1 : ℕ) : ZMod _), ((x.2.2.1 : ℕ) : ZMod _)) x.2.2.2 ≤
      ∑ x, ∑ i, F x i := by
  obtain ⟨e1, e2, e3, p1, p2, p3, q1, q2, q3⟩ := hg.shapes
  obtain ⟨g1, g2, g3⟩ := hg
  have hx := blendExt_nonneg g.bn
  have inj : ∀ {n : ℕ} [NeZero n] {a b : ℕ}, a < n → b < n → ((a : ℕ) : ZMod n) = b → a = b := by
    intro n _ a b ha hb h
    have := (ZMod.natCast_eq_natCast_iff' a b n).1 h
    rwa [Nat.mod_eq_of_lt ha, Nat.mod_eq_of_lt hb] at this
  let φ : g.Cell → Box g.shape1.toNat g.shape2.toNat g.shape3.toNat × Fin 3 := fun x =>
    ((((g.nb.toNat + x.1 : ℕ) : ZMod _), ((g.my.toNat + x.2.1 : ℕ) : ZMod _), ((x.2.2.1 : ℕ) : ZMod _)), x.2.2.2)
  have hφ : Function.Injective φ := by
    rintro ⟨r, b, c, k⟩ ⟨r', b', c', k'⟩ h
    simp only [φ, Prod.mk.injEq] at h
    obtain ⟨⟨h1, h2, h3⟩, h4⟩ := h
    have a1 := inj (by have := r.isLt; omega) (by have := r'.isLt; omega) h1
    have a2 := inj (by have := b.isLt; omega) (by have := b'.isLt; omega) h2
    have a3 := inj (by have := c.isLt; omega) (by have := c'.isLt; omega) h3
    have b1 : r = r' := Fin.ext (by omega)
    have b2 : b = b' := Fin.ext (by omega)
    have b3 : c = c' := Fin.ext a3
    rw [b1, b2, b3, h4]
  calc ∑ x : g.Cell, F (φ x).1 (φ x).2 = ∑ p ∈ Finset.univ.image φ, F p.1 p.2 := by
        rw [Finset.sum_image fun x _ y _ h => hφ h]
    _ ≤ ∑ p : Box g.shape1.toNat g.shape2.toNat g.shape3.toNat × Fin 3, F p.1 p.2 :=
        Finset.sum_le_sum_of_subset_of_nonneg (Finset.subset_univ _) fun p _ _ => h0 _ _
    _ = ∑ x, ∑ i, F x i := Fintype.sum_prod_type (f := fun p : Box g.shape1.toNat g.shape2.toNat g.shape3.toNat × Fin 3 => F p.1 p.2)

/-- The exact sampled value at a cell of block `j`. -/
def Spec.sampled (g : Gen) [NeZero g.shape1.toNat] [NeZero g.shape2.toNat] [NeZero g.shape3.toNat] (j : ℕ) (x : g.Cell) : ℝ :=
  vfSample (spectrumOf g.kernel.eval (g.rf.L.getD 0 0) (g.rf.L.getD 1 0) (g.rf.L.getD 2 0))
    (transformNorm (g.rf.L.getD 0 0) (g.rf.L.getD 1 0) (g.rf.L.getD 2 0))
    (fun x l => g.gauss ((((j * g.Nx + x.1.val) * g.shape2.toNat + x.2.1.val) * g.shape3.toNat + x.2.2.val) * 3 + l.val) * g.rf.noiseStd)
    (((g.nb.toNat + x.1 : ℕ) : ZMod g.shape1.toNat), ((g.my.toNat + x.2.1 : ℕ) : ZMod g.shape2.toNat),
      ((x.2.2.1 : ℕ) : ZMod g.shape3.toNat)) x.2.2.2

/-- The values returned after calls that all succeeded. -/
theorem wind_values {env : GenEnv} {a : GenArgs} {g : Gen} {q : ℕ} (ha : a.PosScales) (h : genInit env a = (.ok g, q))
    (hlow : a.low = none) [NeZero g.shape1.toNat] [NeZero g.shape2.toNat] [NeZero g.shape3.toNat]
    {cs : List (ℕ × ProfileArgs)} (hcs : ∀ r ∈ (g.run cs).1, ∃ f, r = .ok f) {p : ProfileArgs} {n : ℕ} {f : Arr Fl}
    (hf : ((g.run cs).2.generate p n).1 = .ok f) {m : ℕ → ℝ}
    (hm : ∀ c < g.Nz, Spec.meanWind p (c * (a.d3 / 2 ^ a.l3)) = fin (m c)) {i : ℕ} (hi : i < n) :
    let J := (cs.map Prod.fst).sum + i
    (∃ x, Spec.sampled g J x ≠ 0) ∧
    ∀ (r : Fin g.Nx) (b : Fin g.Ny) (c : Fin g.Nz), f.val? (J * g.Nx + r) b c = some fun k =>
      fin (Spec.sampled g J (r, b, c, k) / Real.sqrt ((∑ x, Spec.sampled g J x ^ 2) / Fintype.card g.Cell) + if k = 0 then m c else 0) := by
  intro J
  obtain ⟨kernel, L, T, hs, hfr, hl, ⟨-, -, d3⟩, ⟨-, -, l3⟩, -, -, -, -, -, -, hnone, -⟩ := genInit_ok h
  have hg := genInit_good ha h
  have hl0 := hnone hlow
  obtain ⟨j, k', tot', e, s, -, -, -, hall⟩ := run_st hg hl cs 0 0 ⟨g.Ny, g.Nz, []⟩
    ⟨rfl, rfl, by simp, fun p hp => by cases hp⟩
  rw [hfr.st] at e hall
  obtain ⟨hk, hj⟩ := hall hcs
  rw [zero_add] at hk hj
  have hent : ∀ (r : Fin g.Nx) (b : Fin g.Ny) (c : Fin g.Nz) (k : Fin 3), (g.block J).entry r b c k = Spec.sampled g J (r, b, c, k) :=
    fun r b c k => block_vf hg J r.isLt b.isLt c.isLt k
  have hsum : ((g.block J).sd) = Real.sqrt ((∑ x, Spec.sampled g J x ^ 2) / Fintype.card g.Cell) := by
    have := sd_cells g g.gauss J
    have e1 : g.withStream g.gauss = g := rfl
    rw [e1] at this
    rw [this]
    congr 2
    · refine Finset.sum_congr rfl fun x _ => ?_
      rw [← hent]; rfl
    · simp only [Gen.Cell, Fintype.card_prod, Fintype.card_fin]
      push_cast; ring
  rw [e] at hf
  rcases generate_st hg hl p n j ⟨s.1, s.2.1⟩ with ⟨h1, h2⟩ | ⟨k, hk, h1, -, h2⟩
  swap
  · rw [h2] at hf; cases hf
  rw [h2] at hf
  obtain rfl := Except.ok.inj hf
  refine ⟨?_, fun r b c => ?_⟩
  · have hany := (h1 i hi).1
    rw [hj] at hany
    have hsd := (sd_mean_square (n1 := g.Nx) (n2 := g.Ny) (n3 := g.Nz) (fun a b c i' => (g.block J).entry a b c i')
      (by rw [← block_ofFn]; exact hany)).1
    rw [← block_ofFn, hsum] at hsd
    by_contra hz
    push Not at hz
    simp [hz] at hsd
  · have := ext_val? g tot' p 0 j n i r b c hi r.isLt b.isLt c.isLt
    rw [s.2.2.1, hk, hj, zero_add] at this
    have e2 : J * g.Nx + r = (cs.map Prod.fst).sum * g.Nx + (i * g.Nx + r) := by
      simp only [J]; ring
    rw [e2, hj, this]
    congr 1
    have hz : ((g.Nz - 1 : ℕ) : ℝ) = 2 ^ g.l3 := by unfold Gen.Nz; simp
    have hmc := hm c c.isLt
    unfold Spec.meanWind at hmc
    funext k
    unfold Gen.outAt Gen.profileAt
    rw [hl0, hz, d3, l3, hmc]
    change (match k with
      | 0 => fin ((g.block J).entry r b c k / (g.block J).sd) + fin (m c) + _
      | 1 => fin ((g.block J).entry r b c k / (g.block J).sd) + _
      | 2 => fin ((g.block J).entry r b c k / (g.block J).sd)) = _
    rw [hent, hsum]
    fin_cases k <;> simp

/-- The exact noise of block `j`. -/
def Spec.noiseAt (g : Gen) (j : ℕ) (x : Box g.shape1.toNat g.shape2.toNat g.shape3.toNat) (l : Fin 3) : ℝ :=
  g.gauss ((((j * g.Nx + x.1.val) * g.shape2.toNat + x.2.1.val) * g.shape3.toNat + x.2.2.val) * 3 + l.val) * g.rf.noiseStd

/-- Bound on the Euclidean norm of the sampled field of block `j`, for a kernel of Frobenius norm at most `M`: `M`, times the norm of the
noise, over the square root of the cell volume (C141). -/
def Spec.fieldBound (g : Gen) [NeZero g.shape1.toNat] [NeZero g.shape2.toNat] [NeZero g.shape3.toNat] (M : ℝ) (j : ℕ) : ℝ :=
  M * Real.sqrt (∑ x : Box g.shape1.toNat g.shape2.toNat g.shape3.toNat, ∑ l : Fin 3, Spec.noiseAt g j x l ^ 2) /
    (|transformNorm (g.rf.L.getD 0 0) (g.rf.L.getD 1 0) (g.rf.L.getD 2 0)| /
      Real.sqrt (voxels g.shape1.toNat g.shape2.toNat g.shape3.toNat))

/-- C145 with the accuracy of the sampler as a hypothesis. -/
theorem wind_generate (A : Fmt) {env : GenEnv} {a : GenArgs} {g : Gen} {q : ℕ} (ha : a.PosScales) (h : genInit env a = (.ok g, q))
    (hlow : a.low = none) [NeZero g.shape1.toNat] [NeZero g.shape2.toNat] [NeZero g.shape3.toNat]
    {cs : List (ℕ × ProfileArgs)} (hcs : ∀ r ∈ (g.run cs).1, ∃ f, r = .ok f) {p : ProfileArgs} {n : ℕ} {f : Arr Fl}
    (hf : ((g.run cs).2.generate p n).1 = .ok f) {m : ℕ → ℝ} {U P : ℝ}
    (hm : ∀ c < g.Nz, Spec.meanWind p (c * (a.d3 / 2 ^ a.l3)) = fin (m c) ∧ |m c| ≤ U ∧
      |A.meanWind p (A.zSpace a.d3 (2 ^ a.l3 + 1) c) - m c| ≤ P)
    {Sh : Box g.shape1.toNat g.shape2.toNat g.shape3.toNat → Matrix (Fin 3) (Fin 3) ℂ} {norm std η κ ε ν M t s : ℝ}
    (hη : 0 ≤ η) (hκ : 1 ≤ κ) (hε : 0 ≤ ε) (hν : 0 ≤ ν) (hM : 0 ≤ M)
    (ht : LogNear t (transformNorm (g.rf.L.getD 0 0) (g.rf.L.getD 1 0) (g.rf.L.getD 2 0)) norm) (hs : LogNear s g.rf.noiseStd std)
    (hS : ∀ k : Box g.shape1.toNat g.shape2.toNat g.shape3.toNat,
      ∑ i, ∑ l, ‖spectrumOf g.kernel.eval (g.rf.L.getD 0 0) (g.rf.L.getD 1 0) (g.rf.L.getD 2 0) k i l‖ ^ 2 ≤ M ^ 2)
    (hacc : ∀ ν' : ℝ, 0 ≤ ν' → ∀ noise y,
      VfRounded Sh (transformNorm (g.rf.L.getD 0 0) (g.rf.L.getD 1 0) (g.rf.L.getD 2 0)) noise η ε ν' y →
      Real.sqrt (∑ x, ∑ i, (y x i - vfSample (spectrumOf g.kernel.eval (g.rf.L.getD 0 0) (g.rf.L.getD 1 0) (g.rf.L.getD 2 0))
        (transformNorm (g.rf.L.getD 0 0) (g.rf.L.getD 1 0) (g.rf.L.getD 2 0)) noise x i) ^ 2) ≤
      ((1 + η) ^ 2 * κ * (1 + ε) * (1 + ν') - 1) * (M * Real.sqrt (∑ x, ∑ i, noise x i ^ 2) /
        (|transformNorm (g.rf.L.getD 0 0) (g.rf.L.getD 1 0) (g.rf.L.getD 2 0)| /
          Real.sqrt (voxels g.shape1.toNat g.shape2.toNat g.shape3.toNat))))
    {i d : ℕ} (hi : i < n) {w : g.Cell → ℝ} (hw : WindRounded A g ((cs.map Prod.fst).sum + i) p Sh norm std η ε ν d w) :
    let J := (cs.map Prod.fst).sum + i
    ∃ u : g.Cell → ℝ, (∀ (r : Fin g.Nx) (b : Fin g.Ny) (c : Fin g.Nz), f.val? (J * g.Nx + r) b c = some fun k => fin (u (r, b, c, k))) ∧
      Real.sqrt ((∑ x, (w x - u x) ^ 2) / Fintype.card g.Cell) ≤
        (Real.exp ((d / 2 + 4) * A.e) - 1) + (Real.exp A.e - 1) * U + Real.exp A.e * P +
        2 * ((1 + η) ^ 2 * κ * (1 + ε) * (1 + ν) * Real.exp (t + s + A.e) - 1) *
          Spec.fieldBound g M J / Real.sqrt (∑ x, Spec.sampled g J x ^ 2) := by
  intro J
  unfold Spec.fieldBound Spec.noiseAt
  have hg := genInit_good ha h
  obtain ⟨-, -, -, -, -, -, ⟨-, -, d3⟩, ⟨-, -, l3⟩, -⟩ := genInit_ok h
  obtain ⟨hnz, hval⟩ := wind_values ha h hlow hcs hf (fun c hc => (hm c hc).1) hi
  obtain ⟨y, hy, v, hv, hv0, sd, hsd, ho⟩ := hw
  rw [d3, l3] at ho
  refine ⟨fun x => Spec.sampled g J x / Real.sqrt ((∑ x, Spec.sampled g J x ^ 2) / Fintype.card g.Cell) +
    if x.2.2.2 = 0 then m x.2.2.1 else 0, hval, ?_⟩
  have t0 := ht.nonneg
  have e0 := A.e_nonneg
  have hν' : 0 ≤ (1 + ν) * Real.exp t - 1 := by
    have := mul_le_mul (by linarith : (1 : ℝ) ≤ 1 + ν) (Real.one_le_exp t0) zero_le_one (by linarith)
    linarith
  have hacc' := hacc _ hν' _ _ (hy.norm_near hν ht)
  obtain ⟨F, hF⟩ : ∃ F, F = (1 + η) ^ 2 * κ * (1 + ε) * (1 + ((1 + ν) * Real.exp t - 1)) := ⟨_, rfl⟩
  rw [← hF] at hacc'
  have F1 : 1 ≤ F := by
    rw [hF]
    have a1 : 1 ≤ (1 + η) ^ 2 := one_le_pow₀ (by linarith)
    exact one_le_mul_of_one_le_of_one_le (one_le_mul_of_one_le_of_one_le (one_le_mul_of_one_le_of_one_le a1 hκ) (by linarith))
      (by linarith)
  have hnoise : ∀ (x : Box g.shape1.toNat g.shape2.toNat g.shape3.toNat) (l : Fin 3), LogNear (s + A.e)
      (g.gauss ((((J * g.Nx + x.1.val) * g.shape2.toNat + x.2.1.val) * g.shape3.toNat + x.2.2.val) * 3 + l.val) * g.rf.noiseStd)
      (A.mul (g.gauss ((((J * g.Nx + x.1.val) * g.shape2.toNat + x.2.1.val) * g.shape3.toNat + x.2.2.val) * 3 + l.val)) std) :=
    fun x l => (A.mul_near (LogNear.refl _) hs).mono (le_of_eq (by ring))
  have hvf := vf_noise hM hS F1 hnoise hacc'
  have hFe : F * Real.exp (s + A.e) = (1 + η) ^ 2 * κ * (1 + ε) * (1 + ν) * Real.exp (t + s + A.e) := by
    rw [hF, add_assoc t, Real.exp_add t]; ring
  rw [hFe] at hvf
  obtain ⟨Δ, hΔ⟩ : ∃ Δ, Δ = ((1 + η) ^ 2 * κ * (1 + ε) * (1 + ν) * Real.exp (t + s + A.e) - 1) *
      (M * Real.sqrt (∑ x : Box g.shape1.toNat g.shape2.toNat g.shape3.toNat, ∑ l : Fin 3,
        (g.gauss ((((J * g.Nx + x.1.val) * g.shape2.toNat + x.2.1.val) * g.shape3.toNat + x.2.2.val) * 3 + l.val) *
          g.rf.noiseStd) ^ 2) /
        (|transformNorm (g.rf.L.getD 0 0) (g.rf.L.getD 1 0) (g.rf.L.getD 2 0)| /
          Real.sqrt (voxels g.shape1.toNat g.shape2.toNat g.shape3.toNat))) := ⟨_, rfl⟩
  rw [← hΔ] at hvf
  have hcrop := crop_le hg _ fun x i => sq_nonneg (y x i - vfSample
    (spectrumOf g.kernel.eval (g.rf.L.getD 0 0) (g.rf.L.getD 1 0) (g.rf.L.getD 2 0))
    (transformNorm (g.rf.L.getD 0 0) (g.rf.L.getD 1 0) (g.rf.L.getD 2 0))
    (fun x l => g.gauss ((((J * g.Nx + x.1.val) * g.shape2.toNat + x.2.1.val) * g.shape3.toNat + x.2.2.val) * 3 + l.val) *
      g.rf.noiseStd) x i)
  have hd : Real.sqrt (∑ x : g.Cell, (v x - Spec.sampled g J x) ^ 2) ≤ Δ := by
    refine le_trans (Real.sqrt_le_sqrt ?_) hvf
    refine le_trans (le_of_eq ?_) hcrop
    refine Finset.sum_congr rfl fun x _ => ?_
    rw [← hv]
    rfl
  have hU0 : 0 ≤ U := (abs_nonneg _).trans (hm 0 (Nat.succ_pos _)).2.1
  have hP0 : 0 ≤ P := (abs_nonneg _).trans (hm 0 (Nat.succ_pos _)).2.2
  have key := wind_error A (ι := g.Cell) (w := Spec.sampled g J) (y := v) (m := fun x => if x.2.2.2 = 0 then m x.2.2.1 else 0)
    (m' := fun x => if x.2.2.2 = 0 then A.meanWind p (A.zSpace a.d3 (2 ^ a.l3 + 1) x.2.2.1) else 0) (out := w) (U := U) (P := P)
    hd hnz hv0 hsd (fun x => ho x.1 x.2.1 x.2.2.1 x.2.2.2)
    (fun x => by
      beta_reduce
      by_cases h0 : x.2.2.2 = 0
      · rw [if_pos h0]; exact (hm _ x.2.2.1.isLt).2.1
      · rw [if_neg h0, abs_zero]; exact hU0)
    (fun x => by
      beta_reduce
      by_cases h0 : x.2.2.2 = 0
      · rw [if_pos h0, if_pos h0]; exact (hm _ x.2.2.1.isLt).2.2
      · rw [if_neg h0, if_neg h0, sub_zero, abs_zero]; exact hP0)
  have hN : (0 : ℝ) < Real.sqrt (Fintype.card g.Cell) := by
    refine Real.sqrt_pos.2 ?_
    obtain ⟨x, -⟩ := hnz
    exact_mod_cast Fintype.card_pos_iff.2 ⟨x⟩
  rw [Real.sqrt_div' _ (Nat.cast_nonneg _), div_le_iff₀ hN]
  refine key.trans (le_of_eq ?_)
  rw [Real.sqrt_div' _ (Nat.cast_nonneg _), mul_assoc (2 : ℝ), ← hΔ]
  obtain ⟨x, hx⟩ := hnz
  have hB : 0 < Real.sqrt (∑ x, Spec.sampled g J x ^ 2) := by
    refine Real.sqrt_pos.2 ?_
    exact lt_of_lt_of_le (by positivity) (Finset.single_le_sum (f := fun x => Spec.sampled g J x ^ 2) (fun i _ => sq_nonneg _)
      (Finset.mem_univ x))
  field_simp

/-! ### Scalars -/

/-- The computed periods. -/
theorem period_near (A : Fmt) (d : ℝ) (l n : ℕ) : LogNear (2 * A.e) (d / (2 ^ l + 1) * n) (A.period d l n) := by
  have h1 : LogNear A.e (d / (2 ^ l + 1)) (A.div d (2 ^ l + 1 : ℕ)) := by
    have := A.rnd_near (d / (2 ^ l + 1 : ℕ))
    push_cast at this
    unfold Fmt.div
    push_cast
    exact this
  exact (A.mul_near h1 (LogNear.refl (n : ℝ))).mono (le_of_eq (by ring))

/-- The computed `TransformNorm`. -/
theorem transformNorm_near (A : Fmt) {L1 L2 L3 L1' L2' L3' t : ℝ} (h1 : LogNear t L1 L1') (h2 : LogNear t L2 L2') (h3 : LogNear t L3 L3') :
    LogNear (3 / 2 * t + 2 * A.e) (transformNorm L1 L2 L3) (A.transformNorm L1' L2' L3') :=
  (A.sqrt_near (A.mul_near (A.mul_near h1 h2) h3)).mono (le_of_eq (by ring))

/-- The computed frequencies. -/
theorem freq_near (A : Fmt) {L L' t : ℝ} (hL : LogNear t L L') (n : ℕ) [NeZero n] (j : ZMod n) :
    LogNear (t + 7 * A.e) (2 * Real.pi / L * fftIdx n j) (A.freq L' n j) := by
  have h1 := A.div_near (A.mul_near (LogNear.refl (2 : ℝ)) (A.rnd_near Real.pi)) hL
  have h2 := A.mul_near (LogNear.refl (n : ℝ)) (A.mul_near (LogNear.refl ((fftIdx n j : ℤ) : ℝ)) (A.rnd_near (1 / (n : ℝ))))
  have h3 := A.mul_near h1 h2
  have hn : (n : ℝ) ≠ 0 := Nat.cast_ne_zero.2 (NeZero.ne n)
  have e : (n : ℝ) * (((fftIdx n j : ℤ) : ℝ) * (1 / (n : ℝ))) = fftIdx n j := by field_simp
  rw [e] at h3
  exact h3.mono (le_of_eq (by ring))

/-- The computed `noise_std`. -/
theorem noiseStd_near (A : Fmt) {env : GenEnv} {a : GenArgs} {g : Gen} {q : ℕ} (h : genInit env a = (.ok g, q)) :
    LogNear (7 / 2 * A.e) g.rf.noiseStd (A.noiseStd a.d1 a.d2 a.d3 a.l1 a.l2 a.l3) := by
  obtain ⟨-, -, -, -, -, -, -, -, -, -, -, -, -, hr, -⟩ := genInit_ok h
  have hr' := Except.ok.inj hr
  have e : g.rf.noiseStd = Real.sqrt (a.d1 / (2 ^ a.l1 + 1 : ℕ) * (a.d2 / (2 ^ a.l2 + 1 : ℕ)) * (a.d3 / (2 ^ a.l3 + 1 : ℕ))) := by
    rw [← hr']
    change Real.sqrt (List.prod [_, _, _]) = _
    simp only [List.prod_cons, List.prod_nil, mul_one]
    push_cast
    rw [mul_assoc]
  rw [e]
  exact (A.sqrt_near (A.mul_near (A.mul_near (A.rnd_near _) (A.rnd_near _)) (A.rnd_near _))).mono (le_of_eq (by ring))

/-- The computed heights. -/
theorem zSpace_near (A : Fmt) (d3 : ℝ) (l c : ℕ) : LogNear (3 * A.e) (c * (d3 / 2 ^ l)) (A.zSpace d3 (2 ^ l + 1) c) := by
  have e0 := A.e_nonneg
  unfold Fmt.zSpace
  by_cases hc : c + 1 = 2 ^ l + 1
  · rw [if_pos hc]
    have : (c : ℝ) = 2 ^ l := by exact_mod_cast Nat.succ_injective hc
    rw [this, mul_div_cancel₀ _ (by positivity)]
    exact (LogNear.refl d3).mono (by positivity)
  · rw [if_neg hc]
    have h1 := (A.mul_near (LogNear.refl (c : ℝ)) (A.rnd_near (d3 / ((2 ^ l + 1 - 1 : ℕ) : ℝ))))
    have h2 := h1.trans (A.rnd_near _)
    have e : ((2 ^ l + 1 - 1 : ℕ) : ℝ) = 2 ^ l := by simp
    unfold Fmt.add Fmt.div
    rw [add_zero]
    rw [e] at h2 ⊢
    exact h2.mono (le_of_eq (by ring))

/-! ### The theorems -/

variable {env : GenEnv} {a : GenArgs} {g : Gen} {q : ℕ} [NeZero g.shape1.toNat] [NeZero g.shape2.toNat] [NeZero g.shape3.toNat]

/-- The computed periods of the object. -/
def Fmt.normOf (A : Fmt) (a : GenArgs) (g : Gen) : ℝ :=
  A.transformNorm (A.period a.d1 a.l1 g.shape1.toNat) (A.period a.d2 a.l2 g.shape2.toNat) (A.period a.d3 a.l3 g.shape3.toNat)

theorem normOf_near (A : Fmt) (h : genInit env a = (.ok g, q)) :
    LogNear (5 * A.e) (transformNorm (g.rf.L.getD 0 0) (g.rf.L.getD 1 0) (g.rf.L.getD 2 0)) (A.normOf a g) := by
  obtain ⟨r1, r2, r3⟩ := rf_periods h
  rw [r1, r2, r3]
  exact (transformNorm_near A (period_near A _ _ _) (period_near A _ _ _) (period_near A _ _ _)).mono (le_of_eq (by ring))

/-- **C145** The wind field that `generate` returns, in floating point arithmetic.  A generator without low-frequency part, any number
of earlier calls that succeeded, and a call that returns `f`.  Let the computed `Spectrum_half` have a relative error `κ` at every
wavevector (Frobenius norm), the transforms, products and the division in the sampler the relative errors `η`, `ε`, `ν`, and the computed
mean wind an error of at most `P`, with values up to `U`.  Then for every new block, the computed values differ from the values of `f`, in
the root mean square over the block, by at most the sum of: the rounding errors of the normalisation (`d` is the depth of the summation);
those of the mean wind; and twice the relative error of the sampled field times the ratio between the bound of C141 for the norm of that
field and the norm of its part in the block. -/
theorem C145_generate (A : Fmt) (ha : a.PosScales) (h : genInit env a = (.ok g, q)) (hlow : a.low = none)
    {cs : List (ℕ × ProfileArgs)} (hcs : ∀ r ∈ (g.run cs).1, ∃ f, r = .ok f) {p : ProfileArgs} {n : ℕ} {f : Arr Fl}
    (hf : ((g.run cs).2.generate p n).1 = .ok f) {m : ℕ → ℝ} {U P : ℝ}
    (hm : ∀ c < g.Nz, Spec.meanWind p (c * (a.d3 / 2 ^ a.l3)) = fin (m c) ∧ |m c| ≤ U ∧
      |A.meanWind p (A.zSpace a.d3 (2 ^ a.l3 + 1) c) - m c| ≤ P)
    {Sh : Box g.shape1.toNat g.shape2.toNat g.shape3.toNat → Matrix (Fin 3) (Fin 3) ℂ} {η κ ε ν M : ℝ}
    (hη : 0 ≤ η) (hκ : 0 ≤ κ) (hε : 0 ≤ ε) (hν : 0 ≤ ν) (hM : 0 ≤ M)
    (hS : ∀ k : Box g.shape1.toNat g.shape2.toNat g.shape3.toNat,
      let S := spectrumOf g.kernel.eval (g.rf.L.getD 0 0) (g.rf.L.getD 1 0) (g.rf.L.getD 2 0)
      ∑ i, ∑ l, ‖S k i l‖ ^ 2 ≤ M ^ 2 ∧
        ∑ i, ∑ l, ‖Sh k i l - spectrumHalf S k i l‖ ^ 2 ≤ κ ^ 2 * ∑ i, ∑ l, ‖spectrumHalf S k i l‖ ^ 2)
    {i d : ℕ} (hi : i < n) {w : g.Cell → ℝ}
    (hw : WindRounded A g ((cs.map Prod.fst).sum + i) p Sh (A.normOf a g) (A.noiseStd a.d1 a.d2 a.d3 a.l1 a.l2 a.l3) η ε ν d w) :
    let J := (cs.map Prod.fst).sum + i
    ∃ u : g.Cell → ℝ, (∀ (r : Fin g.Nx) (b : Fin g.Ny) (c : Fin g.Nz), f.val? (J * g.Nx + r) b c = some fun k => fin (u (r, b, c, k))) ∧
      Real.sqrt ((∑ x, (w x - u x) ^ 2) / (g.Nx * g.Ny * g.Nz * 3 : ℕ)) ≤
        (Real.exp ((d / 2 + 4) * A.e) - 1) + (Real.exp A.e - 1) * U + Real.exp A.e * P +
        2 * ((1 + η) ^ 2 * (1 + κ) * (1 + ε) * (1 + ν) * Real.exp (19 / 2 * A.e) - 1) *
          Spec.fieldBound g M J / Real.sqrt (∑ x, Spec.sampled g J x ^ 2) := by
  intro J
  have key := wind_generate A ha h hlow hcs hf hm (κ := 1 + κ) hη (by linarith) hε hν hM (normOf_near A h) (noiseStd_near A h)
    (fun k => (hS k).1) (fun ν' hν' noise y hy => (C141_field hη hκ hε hν' hM (fun k => (hS k).1) (fun k => (hS k).2) hy).2) hi hw
  obtain ⟨u, hu, hb⟩ := key
  refine ⟨u, hu, ?_⟩
  have e1 : 5 * A.e + 7 / 2 * A.e + A.e = 19 / 2 * A.e := by ring
  have e2 : (Fintype.card g.Cell) = g.Nx * g.Ny * g.Nz * 3 := by
    simp only [Gen.Cell, Fintype.card_prod, Fintype.card_fin]; ring
  rw [e1, e2] at hb
  exact hb

/-- **C145** The same for the von Karman generator, from its arguments: all errors but those of the transforms, products and divisions in
the sampler are worked out.  `R` bounds `|log L|` and the logarithm of `1 + L² k²` over the computed frequencies. -/
theorem C145_vk (A : Fmt) (he : A.e ≤ 1) (ha : a.PosScales) (h : genInit env a = (.ok g, q)) (hlow : a.low = none)
    {L E0 R : ℝ} (hker : g.kernel = .vk L E0) (hL : 0 < L) (hE : 0 ≤ E0) (hR : |Real.log L| ≤ R)
    (hR2 : ∀ k : Box g.shape1.toNat g.shape2.toNat g.shape3.toNat,
      let q := A.freqOf (A.period a.d1 a.l1 g.shape1.toNat) (A.period a.d2 a.l2 g.shape2.toNat) (A.period a.d3 a.l3 g.shape3.toNat) k
      Real.log (1 + L ^ 2 * (q.k1 * q.k1 + q.k2 * q.k2 + q.k3 * q.k3)) ≤ R)
    {cs : List (ℕ × ProfileArgs)} (hcs : ∀ r ∈ (g.run cs).1, ∃ f, r = .ok f) {p : ProfileArgs} {n : ℕ} {f : Arr Fl}
    (hf : ((g.run cs).2.generate p n).1 = .ok f) {m : ℕ → ℝ} {U P : ℝ}
    (hm : ∀ c < g.Nz, Spec.meanWind p (c * (a.d3 / 2 ^ a.l3)) = fin (m c) ∧ |m c| ≤ U ∧
      |A.meanWind p (A.zSpace a.d3 (2 ^ a.l3 + 1) c) - m c| ≤ P)
    {η ε ν : ℝ} (hη : 0 ≤ η) (hε : 0 ≤ ε) (hν : 0 ≤ ν) {i d : ℕ} (hi : i < n) {w : g.Cell → ℝ}
    (hw : WindRounded A g ((cs.map Prod.fst).sum + i) p (A.vkHalf L E0 (A.freqOf (A.period a.d1 a.l1 g.shape1.toNat)
      (A.period a.d2 a.l2 g.shape2.toNat) (A.period a.d3 a.l3 g.shape3.toNat))) (A.normOf a g)
      (A.noiseStd a.d1 a.d2 a.d3 a.l1 a.l2 a.l3) η ε ν d w) :
    let J := (cs.map Prod.fst).sum + i
    ∃ u : g.Cell → ℝ, (∀ (r : Fin g.Nx) (b : Fin g.Ny) (c : Fin g.Nz), f.val? (J * g.Nx + r) b c = some fun k => fin (u (r, b, c, k))) ∧
      Real.sqrt ((∑ x, (w x - u x) ^ 2) / (g.Nx * g.Ny * g.Nz * 3 : ℕ)) ≤
        (Real.exp ((d / 2 + 4) * A.e) - 1) + (Real.exp A.e - 1) * U + Real.exp A.e * P +
        2 * ((1 + η) ^ 2 * (1 + ε) * (1 + ν) * Real.exp ((139 / 2 + 5 * R) * A.e) - 1) *
          Spec.fieldBound g (Real.sqrt (E0 * L ^ (11 / 3 : ℝ) / (2 * Real.pi))) J / Real.sqrt (∑ x, Spec.sampled g J x ^ 2) := by
  intro J
  have e0 := A.e_nonneg
  have R0 := (abs_nonneg _).trans hR
  obtain ⟨r1, r2, r3⟩ := rf_periods h
  have p1 : LogNear (2 * A.e) (g.rf.L.getD 0 0) (A.period a.d1 a.l1 g.shape1.toNat) := by rw [r1]; exact period_near A _ _ _
  have p2 : LogNear (2 * A.e) (g.rf.L.getD 1 0) (A.period a.d2 a.l2 g.shape2.toNat) := by rw [r2]; exact period_near A _ _ _
  have p3 : LogNear (2 * A.e) (g.rf.L.getD 2 0) (A.period a.d3 a.l3 g.shape3.toNat) := by rw [r3]; exact period_near A _ _ _
  have hq : ∀ k : Box g.shape1.toNat g.shape2.toNat g.shape3.toNat,
      let q := A.freqOf (A.period a.d1 a.l1 g.shape1.toNat) (A.period a.d2 a.l2 g.shape2.toNat) (A.period a.d3 a.l3 g.shape3.toNat)
      LogNear (9 * A.e) (freqOf (g.rf.L.getD 0 0) (g.rf.L.getD 1 0) (g.rf.L.getD 2 0) k).k1 (q k).k1 ∧
      LogNear (9 * A.e) (freqOf (g.rf.L.getD 0 0) (g.rf.L.getD 1 0) (g.rf.L.getD 2 0) k).k2 (q k).k2 ∧
      LogNear (9 * A.e) (freqOf (g.rf.L.getD 0 0) (g.rf.L.getD 1 0) (g.rf.L.getD 2 0) k).k3 (q k).k3 := by
    intro k
    exact ⟨(freq_near A p1 _ _).mono (le_of_eq (by ring)), (freq_near A p2 _ _).mono (le_of_eq (by ring)),
      (freq_near A p3 _ _).mono (le_of_eq (by ring))⟩
  have hx : 1 ≤ Real.exp ((24 + 5 * R) * A.e + 4 * (9 * A.e)) := Real.one_le_exp (by positivity)
  have key := wind_generate A ha h hlow hcs hf hm hη hx hε hν (Real.sqrt_nonneg (E0 * L ^ (11 / 3 : ℝ) / (2 * Real.pi)))
    (normOf_near A h) (noiseStd_near A h) (by rw [hker]; exact vk_spectrum_le hL hE)
    (fun ν' hν' noise y hy => by
      rw [hker]
      exact C141_vk A he hL hE hη hε hν' hR hq hR2 hy) hi hw
  obtain ⟨u, hu, hb⟩ := key
  refine ⟨u, hu, ?_⟩
  have e2 : (Fintype.card g.Cell) = g.Nx * g.Ny * g.Nz * 3 := by
    simp only [Gen.Cell, Fintype.card_prod, Fintype.card_fin]; ring
  rw [e2] at hb
  refine hb.trans (le_of_eq ?_)
  have e3 : (1 + η) ^ 2 * Real.exp ((24 + 5 * R) * A.e + 4 * (9 * A.e)) * (1 + ε) * (1 + ν) * Real.exp (5 * A.e + 7 / 2 * A.e + A.e) =
      (1 + η) ^ 2 * (1 + ε) * (1 + ν) * Real.exp ((139 / 2 + 5 * R) * A.e) := by
    rw [show (139 / 2 + 5 * R) * A.e = ((24 + 5 * R) * A.e + 4 * (9 * A.e)) + (5 * A.e + 7 / 2 * A.e + A.e) by ring,
      Real.exp_add ((24 + 5 * R) * A.e + 4 * (9 * A.e))]
    ring
  rw [e3]

/-- **C145** The mean wind by the power law: its values are at most that at the top, and the computed values, from the computed heights,
differ by at most `exp ((4 alpha + 2) e) - 1` times that.  (`0 ** alpha` is computed as `0`.) -/
theorem C145_power (A : Fmt) {p : ProfileArgs} {d3 α : ℝ} (hd : 0 < d3) (ht : p.ptype ≠ "LOG") (hα : p.plexp = some α) (h0 : 0 < α)
    (hr : 0 < p.zref) (hu : 0 < p.uref) (hz : A.powF 0 α = 0) (l : ℕ) :
    ∃ m : ℕ → ℝ, ∀ c : ℕ, c < 2 ^ l + 1 → Spec.meanWind p (c * (d3 / 2 ^ l)) = fin (m c) ∧ |m c| ≤ p.uref * (d3 / p.zref) ^ α ∧
      |A.meanWind p (A.zSpace d3 (2 ^ l + 1) c) - m c| ≤ (Real.exp ((4 * α + 2) * A.e) - 1) * (p.uref * (d3 / p.zref) ^ α) := by
  have e0 := A.e_nonneg
  refine ⟨fun c => p.uref * (c * (d3 / 2 ^ l) / p.zref) ^ α, fun c hc => ?_⟩
  have z0 : 0 ≤ c * (d3 / 2 ^ l) := by positivity
  have zle : c * (d3 / 2 ^ l) ≤ d3 := by
    have : (c : ℝ) ≤ 2 ^ l := by exact_mod_cast Nat.lt_succ_iff.1 hc
    calc c * (d3 / 2 ^ l) ≤ 2 ^ l * (d3 / 2 ^ l) := mul_le_mul_of_nonneg_right this (by positivity)
      _ = d3 := mul_div_cancel₀ _ (by positivity)
  have m0 : 0 ≤ p.uref * (c * (d3 / 2 ^ l) / p.zref) ^ α := by positivity
  have hle : p.uref * (c * (d3 / 2 ^ l) / p.zref) ^ α ≤ p.uref * (d3 / p.zref) ^ α :=
    mul_le_mul_of_nonneg_left (Real.rpow_le_rpow (by positivity) (div_le_div_of_nonneg_right zle hr.le) h0.le) hu.le
  refine ⟨?_, ?_, ?_⟩
  · unfold Spec.meanWind
    rw [if_neg ht, hα]
    exact powerLaw_fin z0 hr h0.le
  · rw [abs_of_nonneg m0]; exact hle
  · unfold Fmt.meanWind Fmt.powerLaw
    rw [if_neg ht, hα, Option.getD_some]
    have hn := zSpace_near A d3 l c
    have hdv := A.div_near hn (LogNear.refl p.zref)
    have near : LogNear ((4 * α + 2) * A.e) (p.uref * (c * (d3 / 2 ^ l) / p.zref) ^ α)
        (A.mul p.uref (A.powF (A.div (A.zSpace d3 (2 ^ l + 1) c) p.zref) α)) := by
      rcases z0.eq_or_lt with hz0 | hz0
      · rw [← hz0, zero_div] at hdv ⊢
        obtain ⟨s, -, hs⟩ := hdv
        rw [zero_mul] at hs
        rw [hs, hz, Real.zero_rpow h0.ne', mul_zero]
        have h1 := A.rnd_near (p.uref * 0)
        rw [mul_zero] at h1
        unfold Fmt.mul
        rw [mul_zero]
        exact h1.mono (by nlinarith [mul_nonneg h0.le e0])
      · have h1 := A.powGiven_near hdv (div_pos hz0 hr) α
        refine (A.mul_near (LogNear.refl p.uref) h1).mono (le_of_eq ?_)
        rw [abs_of_pos h0]; ring
    have h2 := near.sub_le
    rw [abs_of_nonneg m0] at h2
    have h3 : 0 ≤ (4 * α + 2) * A.e := by positivity
    have h4 : 0 ≤ Real.exp ((4 * α + 2) * A.e) - 1 := by linarith [Real.one_le_exp h3]
    exact h2.trans ((mul_le_mul_of_nonneg_right hle h4).trans (le_of_eq (mul_comm _ _)))

/-- **C145** The mean wind by the logarithmic law, for a reference height above the roughness height. -/
theorem C145_log (A : Fmt) {p : ProfileArgs} {d3 : ℝ} (hd : 0 < d3) (ht : p.ptype = "LOG") (h0 : 0 < p.z0) (hr : p.z0 < p.zref)
    (hu : 0 < p.uref) (he : 2 * A.e ≤ Real.log (p.zref / p.z0)) (l : ℕ) :
    let D := Real.log (p.zref / p.z0)
    let N := Real.log (d3 / p.z0 + 1)
    ∃ m : ℕ → ℝ, ∀ c : ℕ, c < 2 ^ l + 1 → Spec.meanWind p (c * (d3 / 2 ^ l)) = fin (m c) ∧ |m c| ≤ p.uref / D * N ∧
      |A.meanWind p (A.zSpace d3 (2 ^ l + 1) c) - m c| ≤
        p.uref / D * (5 * A.e) + (Real.exp ((4 + 2 / D) * A.e) - 1) * (p.uref / D * (N + 5 * A.e)) := by
  intro D N
  have e0 := A.e_nonneg
  have hz : 0 < p.zref := h0.trans hr
  have Dp : 0 < D := Real.log_pos ((one_lt_div h0).2 hr)
  have q0 : 0 < p.uref / D := div_pos hu Dp
  refine ⟨fun c => p.uref * Real.log (c * (d3 / 2 ^ l) / p.z0 + 1) / D, fun c hc => ?_⟩
  obtain ⟨z, hzd⟩ : ∃ z, z = c * (d3 / 2 ^ l) := ⟨_, rfl⟩
  have z0 : 0 ≤ z := by rw [hzd]; positivity
  have zle : z ≤ d3 := by
    have : (c : ℝ) ≤ 2 ^ l := by exact_mod_cast Nat.lt_succ_iff.1 hc
    rw [hzd]
    calc c * (d3 / 2 ^ l) ≤ 2 ^ l * (d3 / 2 ^ l) := mul_le_mul_of_nonneg_right this (by positivity)
      _ = d3 := mul_div_cancel₀ _ (by positivity)
  beta_reduce
  have hn := zSpace_near A d3 l c
  rw [← hzd] at hn ⊢
  obtain ⟨z', hz'⟩ : ∃ z', z' = A.zSpace d3 (2 ^ l + 1) c := ⟨_, rfl⟩
  rw [← hz'] at hn ⊢
  have zq : 0 ≤ z / p.z0 := by positivity
  have n0 : 0 ≤ Real.log (z / p.z0 + 1) := Real.log_nonneg (by linarith)
  have nle : Real.log (z / p.z0 + 1) ≤ N :=
    Real.log_le_log (by linarith) (by have := div_le_div_of_nonneg_right zle h0.le; linarith)
  have e1 : p.uref * Real.log (z / p.z0 + 1) / D = p.uref / D * Real.log (z / p.z0 + 1) := by ring
  refine ⟨?_, ?_, ?_⟩
  · unfold Spec.meanWind
    rw [if_pos ht]
    exact logLaw_fin z0 h0 hz hr.ne'
  · rw [e1, abs_of_nonneg (mul_nonneg q0.le n0)]
    exact mul_le_mul_of_nonneg_left nle q0.le
  · unfold Fmt.meanWind
    rw [if_pos ht]
    have z0' : 0 ≤ z' := hn.nonneg_right z0
    obtain ⟨y, -, hy, hb⟩ := C138_log A z0' h0 hr hu he
    have l1 : LogNear (3 * A.e) (z / p.z0 + 1) (z' / p.z0 + 1) := by
      have := hn.div (LogNear.refl p.z0)
      rw [add_zero] at this
      exact this.add (one_near A (by positivity)) zq zero_le_one
    have l2 := l1.abs_log (by linarith)
    have hN' : Real.log (z' / p.z0 + 1) ≤ N + 3 * A.e := by linarith [(abs_le.1 l2).2]
    have hyz : |y - p.uref * Real.log (z / p.z0 + 1) / D| ≤ p.uref / D * (3 * A.e) := by
      rw [hy, show p.uref * Real.log (z' / p.z0 + 1) / Real.log (p.zref / p.z0) - p.uref * Real.log (z / p.z0 + 1) / D =
        p.uref / D * (Real.log (z' / p.z0 + 1) - Real.log (z / p.z0 + 1)) by simp only [D]; ring, abs_mul, abs_of_pos q0]
      exact mul_le_mul_of_nonneg_left l2 q0.le
    have hex : 0 ≤ Real.exp ((4 + 2 / D) * A.e) - 1 := by
      have : 0 ≤ (4 + 2 / D) * A.e := by positivity
      linarith [Real.one_le_exp this]
    have h3 : (Real.exp ((4 + 2 / D) * A.e) - 1) * (p.uref / D * (Real.log (z' / p.z0 + 1) + 2 * A.e)) ≤
        (Real.exp ((4 + 2 / D) * A.e) - 1) * (p.uref / D * (N + 5 * A.e)) :=
      mul_le_mul_of_nonneg_left (mul_le_mul_of_nonneg_left (by linarith) q0.le) hex
    have h4 := abs_sub_le (A.logLaw z' p.z0 p.zref p.uref) y (p.uref * Real.log (z / p.z0 + 1) / D)
    have h5 : p.uref / D * (2 * A.e) + p.uref / D * (3 * A.e) = p.uref / D * (5 * A.e) := by ring
    change |A.logLaw z' p.z0 p.zref p.uref - y| ≤ p.uref / D * (2 * A.e) +
      (Real.exp ((4 + 2 / D) * A.e) - 1) * (p.uref / D * (Real.log (z' / p.z0 + 1) + 2 * A.e)) at hb
    linarith only [h3, h4, h5, hb, hyz]

/-- Blocks that may be computed exist in every format, unless the sampled block vanishes: here with exact transforms. -/
example (A : Fmt) (g : Gen) [NeZero g.shape1.toNat] [NeZero g.shape2.toNat] [NeZero g.shape3.toNat] (j : ℕ) (p : ProfileArgs)
    (S : Box g.shape1.toNat g.shape2.toNat g.shape3.toNat → Matrix (Fin 3) (Fin 3) ℂ) (norm std : ℝ)
    (hne : ∃ x : g.Cell, irfftn (fun k => ∑ l, S k x.2.2.2 l * fftn (fun z => ((A.mul (g.gauss ((((j * g.Nx + z.1.val) *
      g.shape2.toNat + z.2.1.val) * g.shape3.toNat + z.2.2.val) * 3 + l.val)) std : ℝ) : ℂ)) k)
      (((g.nb.toNat + x.1 : ℕ) : ZMod g.shape1.toNat), ((g.my.toNat + x.2.1 : ℕ) : ZMod g.shape2.toNat),
        ((x.2.2.1 : ℕ) : ZMod g.shape3.toNat)) / norm ≠ 0) :
    ∃ d w, WindRounded A g j p S norm std 0 0 0 d w := by
  obtain ⟨N, hN⟩ : ∃ N : Box g.shape1.toNat g.shape2.toNat g.shape3.toNat → Fin 3 → ℝ, N = fun z l => A.mul (g.gauss ((((j * g.Nx +
    z.1.val) * g.shape2.toNat + z.2.1.val) * g.shape3.toNat + z.2.2.val) * 3 + l.val)) std := ⟨_, rfl⟩
  obtain ⟨v, hv⟩ : ∃ v : g.Cell → ℝ, v = fun x => irfftn (fun k => ∑ l, S k x.2.2.2 l * fftn (fun z => (N z l : ℂ)) k)
      (((g.nb.toNat + x.1 : ℕ) : ZMod g.shape1.toNat), ((g.my.toNat + x.2.1 : ℕ) : ZMod g.shape2.toNat),
        ((x.2.2.1 : ℕ) : ZMod g.shape3.toNat)) / norm := ⟨_, rfl⟩
  obtain ⟨s, hs⟩ := Fmt.Summation.foldl (A := A) (((Finset.univ : Finset g.Cell).toList.map v).map A.sq)
  refine ⟨_, fun x => A.add (A.div (v x) (A.sqrt (A.div s ((Finset.univ : Finset g.Cell).toList.map v).length)))
    (if x.2.2.2 = 0 then A.meanWind p (A.zSpace g.d3 (2 ^ g.l3 + 1) x.2.2.1) else 0),
    fun x i => irfftn (fun k => ∑ l, S k i l * fftn (fun z => (N z l : ℂ)) k) x / norm, ?_, v, fun r b c k => by rw [hv], ?_,
    _, ⟨s, hs, rfl⟩, fun r b c k => rfl⟩
  · rw [← hN]
    refine ⟨fun k l => fftn (fun x => (N x l : ℂ)) k, fun k i => ∑ l, S k i l * fftn (fun x => (N x l : ℂ)) k,
      fun x i => irfftn (fun k => ∑ l, S k i l * fftn (fun x => (N x l : ℂ)) k) x, ?_, ?_, ?_, ?_⟩
    · simp [halfEnergy]
    · intro k i; simp
    · simp
    · intro x i; simp
  · rw [hv, hN]; exact hne

/-- The power law with exponent `1/5`, reference height 90 m, 11.4 m/s, over 180 m. -/
example (A : Fmt) (hz : A.powF 0 (1 / 5) = 0) : ∃ m : ℕ → ℝ, ∀ c : ℕ, c < 2 ^ 5 + 1 →
    Spec.meanWind ⟨90, 11.4, 0.03, "PL", some (1 / 5)⟩ (c * (180 / 2 ^ 5)) = fin (m c) ∧ |m c| ≤ 11.4 * (180 / 90 : ℝ) ^ (1 / 5 : ℝ) ∧
      |A.meanWind ⟨90, 11.4, 0.03, "PL", some (1 / 5)⟩ (A.zSpace 180 (2 ^ 5 + 1) c) - m c| ≤
        (Real.exp ((4 * (1 / 5) + 2) * A.e) - 1) * (11.4 * (180 / 90 : ℝ) ^ (1 / 5 : ℝ)) :=
  C145_power A (p := ⟨90, 11.4, 0.03, "PL", some (1 / 5)⟩) (by norm_num) (by decide) rfl (by norm_num) (by norm_num) (by norm_num) hz 5

end
end Verif
