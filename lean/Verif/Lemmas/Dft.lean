import Verif.Model.Sampling
import Mathlib.Tactic.FieldSimp
import Mathlib.Tactic.Ring
import Mathlib.Tactic.Linarith

/-!
# Discrete Fourier transforms on a three-dimensional periodic grid
-/

namespace Verif

noncomputable section

variable {n1 n2 n3 : ℕ} [NeZero n1] [NeZero n2] [NeZero n3]

theorem wave_add_right (k x y : Box n1 n2 n3) : wave k (x + y) = wave k x * wave k y := by
  simp only [wave, Prod.fst_add, Prod.snd_add, mul_add, AddChar.map_add_eq_mul]
  ring

theorem wave_comm (k x : Box n1 n2 n3) : wave k x = wave x k := by
  simp only [wave, mul_comm]

theorem wave_add_left (k l x : Box n1 n2 n3) : wave (k + l) x = wave k x * wave l x := by
  rw [wave_comm, wave_add_right, wave_comm x k, wave_comm x l]

@[simp] theorem wave_zero_right (k : Box n1 n2 n3) : wave k 0 = 1 := by simp [wave]

@[simp] theorem wave_zero_left (x : Box n1 n2 n3) : wave 0 x = 1 := by simp [wave]

theorem wave_neg_left (k x : Box n1 n2 n3) : wave (-k) x = wave k (-x) := by
  simp [wave]

theorem stdAddChar_conj {n : ℕ} [NeZero n] (j : ZMod n) :
    (starRingEnd ℂ) (ZMod.stdAddChar j) = ZMod.stdAddChar (-j) := by
  rw [AddChar.map_neg_eq_inv]
  have h : ‖(ZMod.stdAddChar j : ℂ)‖ = 1 := by
    rw [ZMod.stdAddChar_apply]; exact Circle.norm_coe _
  exact (Complex.inv_eq_conj h).symm

theorem wave_conj (k x : Box n1 n2 n3) : (starRingEnd ℂ) (wave k x) = wave (-k) x := by
  simp only [wave, map_mul, stdAddChar_conj, Prod.fst_neg, Prod.snd_neg, neg_mul]

theorem wave_mul_neg (k x : Box n1 n2 n3) : wave k x * wave (-k) x = 1 := by
  rw [← wave_add_left]; simp

theorem voxels_pos : 0 < voxels n1 n2 n3 :=
  Nat.mul_pos (Nat.mul_pos (NeZero.pos n1) (NeZero.pos n2)) (NeZero.pos n3)

theorem voxels_ne : (voxels n1 n2 n3 : ℂ) ≠ 0 := by exact_mod_cast (voxels_pos (n1 := n1) (n2 := n2) (n3 := n3)).ne'

theorem voxels_neR : (voxels n1 n2 n3 : ℝ) ≠ 0 := by exact_mod_cast (voxels_pos (n1 := n1) (n2 := n2) (n3 := n3)).ne'

theorem sum_stdAddChar {n : ℕ} [NeZero n] (b : ZMod n) :
    ∑ x : ZMod n, (ZMod.stdAddChar (x * b) : ℂ) = if b = 0 then (n : ℂ) else 0 := by
  rw [AddChar.sum_mulShift b (ZMod.isPrimitive_stdAddChar n), ZMod.card]
  split_ifs <;> simp

/-- Orthogonality of the waves. -/
theorem sum_wave (x : Box n1 n2 n3) : ∑ k, wave k x = if x = 0 then (voxels n1 n2 n3 : ℂ) else 0 := by
  have h : ∑ k, wave k x = (∑ a : ZMod n1, (ZMod.stdAddChar (a * x.1) : ℂ)) *
      ((∑ b : ZMod n2, (ZMod.stdAddChar (b * x.2.1) : ℂ)) * ∑ c : ZMod n3, (ZMod.stdAddChar (c * x.2.2) : ℂ)) := by
    rw [Fintype.sum_prod_type, Finset.sum_mul]
    refine Finset.sum_congr rfl fun a _ => ?_
    rw [Fintype.sum_prod_type, Finset.sum_mul_sum, Finset.mul_sum]
    refine Finset.sum_congr rfl fun b _ => ?_
    rw [Finset.mul_sum]
    refine Finset.sum_congr rfl fun c _ => ?_
    simp only [wave]
    ring
  rw [h, sum_stdAddChar, sum_stdAddChar, sum_stdAddChar]
  by_cases h1 : x.1 = 0
  · by_cases h2 : x.2.1 = 0
    · by_cases h3 : x.2.2 = 0
      · have : x = 0 := Prod.ext h1 (Prod.ext h2 h3)
        simp [this, voxels, mul_assoc]
      · have : x ≠ 0 := fun e => h3 (by rw [e]; rfl)
        simp [h3, this]
    · have : x ≠ 0 := fun e => h2 (by rw [e]; rfl)
      simp [h2, this]
  · have : x ≠ 0 := fun e => h1 (by rw [e]; rfl)
    simp [h1, this]

theorem sum_wave_left (k : Box n1 n2 n3) : ∑ x, wave k x = if k = 0 then (voxels n1 n2 n3 : ℂ) else 0 := by
  rw [← sum_wave]
  exact Finset.sum_congr rfl fun x _ => wave_comm _ _

/-- Fourier inversion, both ways. -/
theorem fftn_ifftn (F : Box n1 n2 n3 → ℂ) : fftn (ifftn F) = F := by
  funext k
  have hv := voxels_ne (n1 := n1) (n2 := n2) (n3 := n3)
  unfold fftn ifftn
  calc ∑ x, (1 / (voxels n1 n2 n3 : ℂ) * ∑ l, F l * wave l x) * wave (-k) x
      = ∑ x, ∑ l, 1 / (voxels n1 n2 n3 : ℂ) * F l * wave (l - k) x := by
        refine Finset.sum_congr rfl fun x _ => ?_
        rw [mul_assoc, Finset.sum_mul, Finset.mul_sum]
        refine Finset.sum_congr rfl fun l _ => ?_
        rw [sub_eq_add_neg, wave_add_left]; ring
    _ = ∑ l, 1 / (voxels n1 n2 n3 : ℂ) * F l * ∑ x, wave (l - k) x := by
        rw [Finset.sum_comm]
        refine Finset.sum_congr rfl fun l _ => ?_
        rw [Finset.mul_sum]
    _ = F k := by
        rw [Finset.sum_eq_single k]
        · rw [sum_wave_left]; simp; field_simp
        · intro l _ hl
          rw [sum_wave_left, if_neg (sub_ne_zero.2 hl), mul_zero]
        · simp

theorem ifftn_fftn (f : Box n1 n2 n3 → ℂ) : ifftn (fftn f) = f := by
  funext x
  have hv := voxels_ne (n1 := n1) (n2 := n2) (n3 := n3)
  unfold fftn ifftn
  calc 1 / (voxels n1 n2 n3 : ℂ) * ∑ k, (∑ y, f y * wave (-k) y) * wave k x
      = 1 / (voxels n1 n2 n3 : ℂ) * ∑ k, ∑ y, f y * wave k (x - y) := by
        congr 1
        refine Finset.sum_congr rfl fun k _ => ?_
        rw [Finset.sum_mul]
        refine Finset.sum_congr rfl fun y _ => ?_
        rw [sub_eq_add_neg, wave_add_right, wave_neg_left]; ring
    _ = 1 / (voxels n1 n2 n3 : ℂ) * ∑ y, f y * ∑ k, wave k (x - y) := by
        rw [Finset.sum_comm]
        congr 1
        refine Finset.sum_congr rfl fun l _ => ?_
        rw [Finset.mul_sum]
    _ = f x := by
        rw [Finset.sum_eq_single x]
        · rw [sum_wave]; simp; field_simp
        · intro y _ hy
          rw [sum_wave, if_neg (sub_ne_zero.2 (Ne.symm hy)), mul_zero]
        · simp

/-- The transform of a real field is Hermitian. -/
theorem fftn_real (f : Box n1 n2 n3 → ℝ) (k : Box n1 n2 n3) :
    fftn (fun x => (f x : ℂ)) (-k) = (starRingEnd ℂ) (fftn (fun x => (f x : ℂ)) k) := by
  unfold fftn
  rw [map_sum]
  refine Finset.sum_congr rfl fun x _ => ?_
  rw [map_mul, wave_conj, Complex.conj_ofReal]

theorem fftn_linear (a b : ℂ) (f g : Box n1 n2 n3 → ℂ) (k : Box n1 n2 n3) :
    fftn (fun x => a * f x + b * g x) k = a * fftn f k + b * fftn g k := by
  unfold fftn
  rw [Finset.mul_sum, Finset.mul_sum, ← Finset.sum_add_distrib]
  exact Finset.sum_congr rfl fun x _ => by ring

theorem fftn_shift (f : Box n1 n2 n3 → ℂ) (s k : Box n1 n2 n3) :
    fftn (fun x => f (x + s)) k = wave k s * fftn f k := by
  unfold fftn
  rw [Finset.mul_sum, ← Equiv.sum_comp (Equiv.addRight s) (fun x => wave k s * (f x * wave (-k) x))]
  refine Finset.sum_congr rfl fun x _ => ?_
  simp only [Equiv.coe_addRight, wave_add_right]
  have := wave_mul_neg k s
  calc f (x + s) * wave (-k) x = f (x + s) * wave (-k) x * (wave k s * wave (-k) s) := by rw [this, mul_one]
    _ = _ := by ring

/-- The Hermitian completion of the stored half spectrum: what the complex-to-real transform inverts. -/
def herm (Y : Box n1 n2 n3 → ℂ) (k : Box n1 n2 n3) : ℂ :=
  if k.2.2.val = 0 ∨ 2 * k.2.2.val = n3 then (Y k + (starRingEnd ℂ) (Y (-k))) / 2
  else if 2 * k.2.2.val < n3 then Y k else (starRingEnd ℂ) (Y (-k))

omit [NeZero n1] [NeZero n2] in
theorem val_neg_three (k : Box n1 n2 n3) :
    ((-k).2.2.val = if k.2.2.val = 0 then 0 else n3 - k.2.2.val) := by
  rw [show (-k).2.2 = -k.2.2 from rfl, ZMod.neg_val]
  split_ifs with h1 h2 h2
  · rfl
  · rw [h1] at h2; simp at h2
  · exact absurd ((ZMod.val_eq_zero _).1 h2) h1
  · rfl

theorem herm_neg (Y : Box n1 n2 n3 → ℂ) (k : Box n1 n2 n3) : herm Y (-k) = (starRingEnd ℂ) (herm Y k) := by
  have hlt : k.2.2.val < n3 := ZMod.val_lt _
  have hv := val_neg_three k
  unfold herm
  rw [neg_neg]
  by_cases h0 : k.2.2.val = 0 ∨ 2 * k.2.2.val = n3
  · rw [if_pos h0, if_pos]
    · rw [map_div₀, map_add, Complex.conj_conj, Complex.conj_ofNat, add_comm]
    · rw [hv]; split_ifs <;> omega
  · rw [if_neg h0, if_neg (by rw [hv]; split_ifs <;> omega)]
    by_cases h1 : 2 * k.2.2.val < n3
    · rw [if_pos h1, if_neg (by rw [hv]; split_ifs <;> omega)]
    · rw [if_neg h1, if_pos (by rw [hv]; split_ifs <;> omega), Complex.conj_conj]

/-- The complex-to-real transform is the full inverse transform of the Hermitian completion. -/
theorem irfftn_eq (Y : Box n1 n2 n3 → ℂ) (x : Box n1 n2 n3) : ((irfftn Y x : ℝ) : ℂ) = ifftn (herm Y) x := by
  -- both sides are half the sum over `k` and `-k`
  have hreal : (starRingEnd ℂ) (∑ k, herm Y k * wave k x) = ∑ k, herm Y k * wave k x := by
    rw [map_sum, ← Equiv.sum_comp (Equiv.neg _)]
    refine Finset.sum_congr rfl fun k _ => ?_
    simp only [Equiv.neg_apply, map_mul, wave_conj, neg_neg, herm_neg, Complex.conj_conj]
  have hre : (∑ k, herm Y k * wave k x) = (((∑ k, herm Y k * wave k x).re : ℝ) : ℂ) :=
    (Complex.conj_eq_iff_re.1 hreal).symm
  unfold irfftn ifftn
  rw [hre]
  push_cast
  congr 1
  rw [← Complex.ofReal_sum]
  congr 1
  rw [Complex.re_sum]
  -- real parts
  set P : Box n1 n2 n3 → ℝ := fun k => (Y k * wave k x).re with hP
  have hPc : ∀ k, ((starRingEnd ℂ) (Y (-k)) * wave k x).re = P (-k) := by
    intro k
    rw [hP]
    have : (starRingEnd ℂ) (Y (-k)) * wave k x = (starRingEnd ℂ) (Y (-k) * wave (-k) x) := by
      rw [map_mul, wave_conj, neg_neg]
    simp only [this, Complex.conj_re]
  have hh : ∀ k, (herm Y k * wave k x).re = if k.2.2.val = 0 ∨ 2 * k.2.2.val = n3 then (P k + P (-k)) / 2
      else if 2 * k.2.2.val < n3 then P k else P (-k) := by
    intro k
    unfold herm
    split_ifs
    · rw [show (Y k + (starRingEnd ℂ) (Y (-k))) / 2 * wave k x =
        ((1 / 2 : ℝ) : ℂ) * (Y k * wave k x + (starRingEnd ℂ) (Y (-k)) * wave k x) by push_cast; ring,
        Complex.re_ofReal_mul, Complex.add_re, hPc]
      ring
    · rfl
    · exact hPc k
  simp only [hh]
  -- split each side
  have e1 : ∀ k : Box n1 n2 n3, (if k.2.2.val ≤ n3 / 2 then c2rWeight k * P k else 0) =
      (if k.2.2.val = 0 ∨ 2 * k.2.2.val = n3 then P k else 0) +
      2 * (if ¬(k.2.2.val = 0 ∨ 2 * k.2.2.val = n3) ∧ 2 * k.2.2.val < n3 then P k else 0) := by
    intro k
    have hlt : k.2.2.val < n3 := ZMod.val_lt _
    unfold c2rWeight
    by_cases h0 : k.2.2.val = 0 ∨ 2 * k.2.2.val = n3
    · rw [if_pos h0, if_pos h0, if_pos (by omega), if_neg (by tauto)]; ring
    · rw [if_neg h0, if_neg h0]
      by_cases h1 : 2 * k.2.2.val < n3
      · rw [if_pos (by omega), if_pos ⟨h0, h1⟩]; ring
      · rw [if_neg (by omega), if_neg (by tauto)]; ring
  have e2 : ∀ k : Box n1 n2 n3, (if k.2.2.val = 0 ∨ 2 * k.2.2.val = n3 then (P k + P (-k)) / 2
      else if 2 * k.2.2.val < n3 then P k else P (-k)) =
      ((if k.2.2.val = 0 ∨ 2 * k.2.2.val = n3 then P k else 0) +
        (if (-k).2.2.val = 0 ∨ 2 * (-k).2.2.val = n3 then P (-k) else 0)) / 2 +
      ((if ¬(k.2.2.val = 0 ∨ 2 * k.2.2.val = n3) ∧ 2 * k.2.2.val < n3 then P k else 0) +
        (if ¬((-k).2.2.val = 0 ∨ 2 * (-k).2.2.val = n3) ∧ 2 * (-k).2.2.val < n3 then P (-k) else 0)) := by
    intro k
    have hlt : k.2.2.val < n3 := ZMod.val_lt _
    have hv := val_neg_three k
    have c1 : ((-k).2.2.val = 0 ∨ 2 * (-k).2.2.val = n3) ↔ (k.2.2.val = 0 ∨ 2 * k.2.2.val = n3) := by
      rw [hv]; split_ifs <;> omega
    by_cases h0 : k.2.2.val = 0 ∨ 2 * k.2.2.val = n3
    · simp only [c1, h0, if_true, not_true, false_and, if_false]; ring
    · have c2 : 2 * (-k).2.2.val < n3 ↔ ¬ 2 * k.2.2.val < n3 := by
        rw [hv]; split_ifs <;> omega
      by_cases h1 : 2 * k.2.2.val < n3
      · simp only [c1, h0, c2, h1, if_false, not_false_iff, true_and, if_true, not_true]; ring
      · simp only [c1, h0, c2, h1, if_false, not_false_iff, true_and, if_true]; ring
  change ∑ k : Box n1 n2 n3, (if k.2.2.val ≤ n3 / 2 then c2rWeight k * P k else 0) = _
  simp only [e1, e2, Finset.sum_add_distrib, ← Finset.mul_sum, ← Finset.sum_div]
  have s1 := Equiv.sum_comp (Equiv.neg (Box n1 n2 n3))
    (fun k => if k.2.2.val = 0 ∨ 2 * k.2.2.val = n3 then P k else 0)
  have s2 := Equiv.sum_comp (Equiv.neg (Box n1 n2 n3))
    (fun k => if ¬(k.2.2.val = 0 ∨ 2 * k.2.2.val = n3) ∧ 2 * k.2.2.val < n3 then P k else 0)
  simp only [Equiv.neg_apply] at s1 s2
  rw [s1, s2]
  ring

omit [NeZero n1] [NeZero n2] [NeZero n3] in
theorem herm_of_hermitian {Y : Box n1 n2 n3 → ℂ} {k : Box n1 n2 n3} (h : Y (-k) = (starRingEnd ℂ) (Y k)) :
    herm Y k = Y k := by
  unfold herm
  rw [h, Complex.conj_conj]
  split_ifs
  · ring
  · rfl
  · rfl

end
end Verif
