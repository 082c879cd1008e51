import Verif.Props.GeneratorSeam

/-!
# Opposite sides of a generated block (C142)

The field a block is cut from is periodic: the point one cell beyond the last plane of the noise array is its first plane.
The margins and the buffer are what separates a returned block from its periodic images.
-/

namespace Verif
open Fl

noncomputable section
open Classical MeasureTheory

/-- A whole number of cells between two points of a line of `n` points, plus a non-zero multiple of a period of
`n + m` cells, spans more than `m` cells. -/
theorem image_cells {n b b' : ℕ} {m t : ℤ} (hm : 0 ≤ m) (hb : b < n) (hb' : b' < n) (ht : t ≠ 0) :
    m + 1 ≤ |(b : ℤ) - b' + t * (n + m)| := by
  rcases lt_or_gt_of_ne ht with h | h
  · have h1 : t * (n + m) ≤ -1 * (n + m) := mul_le_mul_of_nonneg_right (by omega) (by omega)
    rw [le_abs]; right; omega
  · have h1 : 1 * ((n : ℤ) + m) ≤ t * (n + m) := mul_le_mul_of_nonneg_right (by omega) (by omega)
    rw [le_abs]; left; omega

theorem image_distance {n b b' : ℕ} {m t : ℤ} {d l : ℝ} (hm : 0 ≤ m) (hb : b < n) (hb' : b' < n) (ht : t ≠ 0) (hd : 0 < d)
    (hl : l ≤ m * d) : l + d ≤ |((b : ℝ) - b' + t * (n + m)) * d| := by
  have h := image_cells hm hb hb' ht
  rw [abs_mul, abs_of_pos hd]
  have h2 : ((m + 1 : ℤ) : ℝ) ≤ |(b : ℝ) - b' + t * (n + m)| := by exact_mod_cast h
  push_cast at h2
  nlinarith

theorem two_ceil {x d : ℝ} (hd : 0 < d) : 2 * x ≤ ((2 * ⌈x / d⌉ : ℤ) : ℝ) * d ∧ ((2 * ⌈x / d⌉ : ℤ) : ℝ) * d < 2 * x + 2 * d := by
  have h1 := Int.le_ceil (x / d)
  have h2 := Int.ceil_lt_add_one (x / d)
  rw [div_le_iff₀ hd] at h1
  rw [← sub_lt_iff_lt_add, lt_div_iff₀ hd] at h2
  push_cast
  constructor <;> nlinarith

/-- **C142.**  Distances to the periodic images.  Take any two points of a block, the one with indices `(r, b, c)`, the other
with indices `(r', b', c')`, and move one of them by whole periods of the sampled field.  Moved along the wind, they are at
least `6 T L` and one cell apart; moved across or upwards, at least `2 L` and one cell. -/
theorem C142_images {env : GenEnv} {a : GenArgs} {g : Gen} {q : ℕ} {K : GenKernel} {L T : ℝ} (ha : a.PosScales)
    (h : genInit env a = (.ok g, q)) (hs : genScales env a = .ok (K, L, T)) :
    let dx := a.d1 / (2 ^ a.l1 + 1)
    let dy := a.d2 / (2 ^ a.l2 + 1)
    let dz := a.d3 / (2 ^ a.l3 + 1)
    (∀ r r' : Fin (2 ^ a.l1 + 1), ∀ t : ℤ, t ≠ 0 → 6 * (T * L) + dx ≤ |((r : ℝ) - r' + t * g.shape1) * dx|) ∧
    (∀ b b' : Fin (2 ^ a.l2 + 1), ∀ t : ℤ, t ≠ 0 → 2 * L + dy ≤ |((b : ℝ) - b' + t * g.shape2) * dy|) ∧
    (∀ c c' : Fin (2 ^ a.l3 + 1), ∀ t : ℤ, t ≠ 0 → 2 * L + dz ≤ |((c : ℝ) - c' + t * g.shape3) * dz|) := by
  obtain ⟨K', L', T', hs', -, -, -, ⟨l1, l2, l3⟩, -, ⟨e0, e1, e2, e3⟩, -⟩ := genInit_ok h
  rw [hs] at hs'
  simp only [Except.ok.injEq, Prod.mk.injEq] at hs'
  obtain ⟨-, rfl, rfl⟩ := hs'
  obtain ⟨g1, g2, g3⟩ := genInit_good ha h
  obtain ⟨⟨p1, p2, p3⟩, -⟩ := ha
  have hb := blendExt_nonneg g.bn
  have q1 : 0 < a.d1 / (2 ^ a.l1 + 1) := by positivity
  have q2 : 0 < a.d2 / (2 ^ a.l2 + 1) := by positivity
  have q3 : 0 < a.d3 / (2 ^ a.l3 + 1) := by positivity
  push_cast at e1 e2 e3
  refine ⟨fun r r' t ht => ?_, fun b b' t ht => ?_, fun c c' t ht => ?_⟩
  · have hl : 6 * (T * L) ≤ ((2 * g.nb + blendExt g.bn : ℤ) : ℝ) * (a.d1 / (2 ^ a.l1 + 1)) := by
      have := (two_ceil (x := 3 * T * L) q1).1
      rw [← e1] at this
      have hb' : (0 : ℝ) ≤ (blendExt g.bn : ℤ) := by exact_mod_cast hb
      push_cast at this ⊢
      nlinarith [mul_nonneg hb' q1.le]
    have := image_distance (m := 2 * g.nb + blendExt g.bn) (by omega) r.isLt r'.isLt ht q1 hl
    unfold Gen.shape1 Gen.Nx
    rw [l1]
    push_cast at this ⊢
    exact this
  · have hl : 2 * L ≤ ((2 * g.my : ℤ) : ℝ) * (a.d2 / (2 ^ a.l2 + 1)) := by
      have := (two_ceil (x := L) q2).1
      rwa [← e2] at this
    have := image_distance (m := 2 * g.my) (by omega) b.isLt b'.isLt ht q2 hl
    unfold Gen.shape2 Gen.Ny
    rw [l2]
    push_cast at this ⊢
    exact this
  · have hl : 2 * L ≤ ((2 * g.mz : ℤ) : ℝ) * (a.d3 / (2 ^ a.l3 + 1)) := by
      have := (two_ceil (x := L) q3).1
      rwa [← e3] at this
    have := image_distance (m := 2 * g.mz) (by omega) c.isLt c'.isLt ht q3 hl
    unfold Gen.shape3 Gen.Nz
    rw [l3]
    push_cast at this ⊢
    exact this

section
variable {g : Gen} [NeZero g.shape1.toNat] [NeZero g.shape2.toNat] [NeZero g.shape3.toNat]
variable {Ω : Type} [MeasurableSpace Ω] {μ : Measure Ω} {ξ : ℕ → Ω → ℝ}

/-- Covariance in the window field: it depends on the displacement in the periodic box. -/
theorem periodic_covariance (hξ : Spec.WhiteStream μ ξ) (hg : g.Good) (j : ℕ)
    (x y : Box g.shape1.toNat g.shape2.toNat g.shape3.toNat) (k l : Fin 3) :
    ∫ ω, g.periodic (fun n => ξ n ω) j x k * g.periodic (fun n => ξ n ω) j y l ∂μ =
      g.rf.noiseStd ^ 2 * ∑ z, ∑ m, g.response z k m * g.response (y - x + z) l m := by
  simp only [periodic_sum]
  rw [white_moment hξ (two_windows_injective hg j), Fintype.sum_sum_type]
  simp only [Sum.elim_inl, Sum.elim_inr, mul_zero, Finset.sum_const_zero, add_zero]
  rw [Fintype.sum_prod_type, Finset.mul_sum]
  refine Fintype.sum_equiv (Equiv.subLeft x) _ _ fun z => ?_
  rw [Finset.mul_sum]
  simp only [Equiv.subLeft_apply]
  refine Finset.sum_congr rfl fun m _ => ?_
  rw [show y - x + (x - z) = y - z by abel]
  ring

end

theorem zmod_displacement {n : ℤ} (hn : 0 < n) {o x y x' y' : ℕ} (h : (y : ℤ) - x ≡ y' - x' [ZMOD n]) :
    ((o + y : ℕ) : ZMod n.toNat) - ((o + x : ℕ) : ZMod n.toNat) = ((o + y' : ℕ) : ZMod n.toNat) - ((o + x' : ℕ) : ZMod n.toNat) := by
  have e : ((n.toNat : ℕ) : ℤ) = n := Int.toNat_of_nonneg hn.le
  rw [← e] at h
  have := (ZMod.intCast_eq_intCast_iff _ _ _).2 h
  push_cast at this ⊢
  rw [add_sub_add_left_eq_sub, add_sub_add_left_eq_sub]
  exact this

section
variable {g : Gen}
variable {Ω : Type} [MeasurableSpace Ω] {μ : Measure Ω} {ξ : ℕ → Ω → ℝ}

/-- **C142.**  In every block before the division by its root mean square, the covariance of two components at two points
depends on their displacement only up to whole periods of the extended box: two pairs of points whose displacements differ
by multiples of `Nx + 2 nb` (with `blend_num > 1`: `blend_num - 1` more), `Ny + 2 my` and `Nz + 2 mz` cells are correlated
alike. -/
theorem C142_fold (hξ : Spec.WhiteStream μ ξ) {env : GenEnv} {a : GenArgs} {q : ℕ} (ha : a.PosScales)
    (h : genInit env a = (.ok g, q)) (j j' : ℕ) (x y x' y' : Fin g.Nx × Fin g.Ny × Fin g.Nz) (k l : Fin 3)
    (h1 : (y.1 : ℤ) - x.1 ≡ y'.1 - x'.1 [ZMOD g.Nx + (2 * g.nb + blendExt a.bn)])
    (h2 : (y.2.1 : ℤ) - x.2.1 ≡ y'.2.1 - x'.2.1 [ZMOD g.Ny + 2 * g.my])
    (h3 : (y.2.2 : ℤ) - x.2.2 ≡ y'.2.2 - x'.2.2 [ZMOD g.Nz + 2 * g.mz]) :
    ∫ ω, g.raw (fun n => ξ n ω) j (x.1, x.2.1, x.2.2, k) * g.raw (fun n => ξ n ω) j (y.1, y.2.1, y.2.2, l) ∂μ =
      ∫ ω, g.raw (fun n => ξ n ω) j' (x'.1, x'.2.1, x'.2.2, k) * g.raw (fun n => ξ n ω) j' (y'.1, y'.2.1, y'.2.2, l) ∂μ := by
  obtain ⟨-, -, -, -, -, -, -, -, -, ⟨e0, -⟩, -, -, ⟨s1, s2, s3⟩, -⟩ := genInit_ok h
  have hg := genInit_good ha h
  haveI : NeZero g.shape1.toNat := ⟨by omega⟩
  haveI : NeZero g.shape2.toNat := ⟨by omega⟩
  haveI : NeZero g.shape3.toNat := ⟨by omega⟩
  rw [← e0] at h1
  simp only [raw_periodic hg]
  rw [periodic_covariance hξ hg, periodic_covariance hξ hg]
  have d1 := zmod_displacement (o := g.nb.toNat) s1 h1
  have d2 := zmod_displacement (o := g.my.toNat) s2 h2
  have d3 := zmod_displacement (o := 0) s3 h3
  simp only [Nat.zero_add] at d3
  simp only [Prod.mk_sub_mk, d1, d2, d3]

/-- **C142.**  Hence the two lateral faces of a block that is wider than its margins together are correlated exactly as two
lines `2 my + 1` cells apart inside it, and the bottom and the top of a block that is higher than its margins together as
two levels `2 mz + 1` cells apart (with the order of the points exchanged); in metres this is between `2 L` and one cell and
`2 L` and three cells, whatever the width and the height of the domain. -/
theorem C142_faces (hξ : Spec.WhiteStream μ ξ) {env : GenEnv} {a : GenArgs} {q : ℕ} {K : GenKernel} {L T : ℝ}
    (ha : a.PosScales) (h : genInit env a = (.ok g, q)) (hs : genScales env a = .ok (K, L, T)) :
    (∀ (j : ℕ) (r r' : Fin g.Nx) (c c' : Fin g.Nz) (lo hi b : Fin g.Ny) (k l : Fin 3),
      lo.val = 0 → hi.val + 1 = g.Ny → (b : ℤ) = 2 * g.my + 1 →
      (∫ ω, g.raw (fun n => ξ n ω) j (r, lo, c, k) * g.raw (fun n => ξ n ω) j (r', hi, c', l) ∂μ =
        ∫ ω, g.raw (fun n => ξ n ω) j (r, b, c, k) * g.raw (fun n => ξ n ω) j (r', lo, c', l) ∂μ) ∧
      2 * L + a.d2 / (2 ^ a.l2 + 1) ≤ b * (a.d2 / (2 ^ a.l2 + 1)) ∧
      b * (a.d2 / (2 ^ a.l2 + 1)) < 2 * L + 3 * (a.d2 / (2 ^ a.l2 + 1))) ∧
    (∀ (j : ℕ) (r r' : Fin g.Nx) (b b' : Fin g.Ny) (lo hi c : Fin g.Nz) (k l : Fin 3),
      lo.val = 0 → hi.val + 1 = g.Nz → (c : ℤ) = 2 * g.mz + 1 →
      (∫ ω, g.raw (fun n => ξ n ω) j (r, b, lo, k) * g.raw (fun n => ξ n ω) j (r', b', hi, l) ∂μ =
        ∫ ω, g.raw (fun n => ξ n ω) j (r, b, c, k) * g.raw (fun n => ξ n ω) j (r', b', lo, l) ∂μ) ∧
      2 * L + a.d3 / (2 ^ a.l3 + 1) ≤ c * (a.d3 / (2 ^ a.l3 + 1)) ∧
      c * (a.d3 / (2 ^ a.l3 + 1)) < 2 * L + 3 * (a.d3 / (2 ^ a.l3 + 1))) := by
  obtain ⟨K', L', T', hs', -, -, -, -, -, ⟨-, -, e2, e3⟩, -⟩ := genInit_ok h
  rw [hs] at hs'
  simp only [Except.ok.injEq, Prod.mk.injEq] at hs'
  obtain ⟨-, rfl, rfl⟩ := hs'
  push_cast at e2 e3
  have cell : ∀ (d : ℝ) (m : ℤ) (b : ℕ), 0 < d → m = ⌈L / d⌉ → (b : ℤ) = 2 * m + 1 → 2 * L + d ≤ b * d ∧ b * d < 2 * L + 3 * d := by
    intro d m b hd hm hb
    obtain ⟨u1, u2⟩ := two_ceil (x := L) hd
    rw [← hm] at u1 u2
    have : (b : ℝ) = 2 * m + 1 := by exact_mod_cast hb
    push_cast at u1 u2
    rw [this]
    constructor <;> nlinarith
  obtain ⟨p1, p2, p3⟩ := ha.1
  refine ⟨fun j r r' c c' lo hi b k l h0 hn hb => ⟨?_, cell _ _ _ (by positivity) e2 hb⟩,
    fun j r r' b b' lo hi c k l h0 hn hc => ⟨?_, cell _ _ _ (by positivity) e3 hc⟩⟩
  · refine C142_fold hξ ha h j j (r, lo, c) (r', hi, c') (r, b, c) (r', lo, c') k l rfl ?_ rfl
    rw [Int.modEq_iff_dvd]
    refine ⟨-1, ?_⟩
    simp only
    omega
  · refine C142_fold hξ ha h j j (r, b, lo) (r', b', hi) (r, b, c) (r', b', lo) k l rfl rfl ?_
    rw [Int.modEq_iff_dvd]
    refine ⟨-1, ?_⟩
    simp only
    omega

end

/-- The hypotheses of `C142_faces` hold for a small isotropic box: length scale 1, 17 cells of size 1 across and upwards,
so that the faces are correlated like lines three cells apart. -/
theorem faces_witness (env : GenEnv) : ∃ (a : GenArgs) (g : Gen) (q : ℕ) (K : GenKernel), a.PosScales ∧
    genInit env a = (.ok g, q) ∧ genScales env a = .ok (K, 1, 1) ∧ ∃ b : Fin g.Ny, (b : ℤ) = 2 * g.my + 1 := by
  obtain ⟨a, ha⟩ : ∃ a : GenArgs, a = ⟨1, 1, 4, 17, 17, 1, 4, 4, "VK", some 1, some 1, some 1, none, none, 2, none⟩ := ⟨_, rfl⟩
  have hs : genScales env a = .ok (.vk 1 1, 1, 1) := by
    subst ha
    unfold genScales heightPower
    simp
  have hp : a.PosScales := by
    subst ha
    refine ⟨⟨by norm_num, by norm_num, by norm_num⟩, fun h => by simp at h, fun _ => ⟨1, 1, rfl, rfl, one_pos, one_pos⟩⟩
  obtain ⟨g, hg⟩ := genInit_of_scales hs hp.1 ⟨zero_le_one, zero_le_one⟩ (by rw [ha])
  refine ⟨a, g, _, _, hp, hg, hs, ?_⟩
  obtain ⟨K', L', T', hs', -, -, -, ⟨-, l2, -⟩, -, ⟨-, -, e2, -⟩, -⟩ := genInit_ok hg
  rw [hs] at hs'
  simp only [Except.ok.injEq, Prod.mk.injEq] at hs'
  obtain ⟨-, rfl, rfl⟩ := hs'
  have hm : g.my = 1 := by
    rw [e2, ha]
    norm_num
  have hn : g.Ny = 17 := by
    unfold Gen.Ny
    rw [l2, ha]
    norm_num
  exact ⟨⟨3, by omega⟩, by rw [hm]; norm_num⟩

end
end Verif
