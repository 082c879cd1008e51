import Verif.Props.GeneratorLaw

/-!
# Where consecutive blocks meet (C98)

The block `j` of a generated field is cut out of a field sampled on a periodic window of noise planes.  The window of the next
block contains the same planes, moved by `Nx`, except that the `Nx` oldest are replaced by new ones.
-/

namespace Verif
open Fl

noncomputable section
open Classical MeasureTheory ProbabilityTheory Filter Topology

section
variable {n1 n2 n3 : ℕ} [NeZero n1] [NeZero n2] [NeZero n3]

/-- Response of the sampler: component `i` at displacement `d` from a unit impulse in component `l` of the noise. -/
def Spec.response (S : Box n1 n2 n3 → Matrix (Fin 3) (Fin 3) ℂ) (norm : ℝ) (d : Box n1 n2 n3) (i l : Fin 3) : ℝ :=
  vfSample S norm (fun y l' => if y = 0 ∧ l' = l then 1 else 0) d i

/-- The sampler is the circular convolution of the noise with its response. -/
theorem vfSample_conv (S : Box n1 n2 n3 → Matrix (Fin 3) (Fin 3) ℂ) (norm : ℝ) (f : Box n1 n2 n3 → Fin 3 → ℝ)
    (x : Box n1 n2 n3) (i : Fin 3) :
    vfSample S norm f x i = ∑ w : Box n1 n2 n3 × Fin 3, Spec.response S norm (x - w.1) i w.2 * f w.1 w.2 := by
  obtain ⟨c, hc⟩ := vfSample_coeff S norm x i
  rw [hc]
  refine Finset.sum_congr rfl fun w _ => ?_
  congr 1
  have h1 := hc fun y l => if y = w.1 ∧ l = w.2 then 1 else 0
  have h2 := C61_shift S norm (fun y l => if y = 0 ∧ l = w.2 then 1 else 0) (-w.1) x i
  have e : (fun y : Box n1 n2 n3 => (fun (y : Box n1 n2 n3) (l : Fin 3) => if y = 0 ∧ l = w.2 then (1 : ℝ) else 0) (y + -w.1)) =
      fun y l => if y = w.1 ∧ l = w.2 then 1 else 0 := by
    funext y l
    simp only [← sub_eq_add_neg, sub_eq_zero]
  rw [e, h1, ← sub_eq_add_neg] at h2
  unfold Spec.response
  rw [← h2, Finset.sum_eq_single w]
  · simp
  · intro w' _ hne
    rw [if_neg, mul_zero]
    rintro ⟨e1, e2⟩
    exact hne (Prod.ext e1 e2)
  · intro h; exact absurd (Finset.mem_univ _) h

end

/-! ### The field on the window of a block -/

section
variable (g : Gen) [NeZero g.shape1.toNat] [NeZero g.shape2.toNat] [NeZero g.shape3.toNat]

/-- Spectral square root on the grid of the periodic box. -/
def Gen.root : Box g.shape1.toNat g.shape2.toNat g.shape3.toNat → Matrix (Fin 3) (Fin 3) ℂ :=
  spectrumOf g.kernel.eval (g.rf.L.getD 0 0) (g.rf.L.getD 1 0) (g.rf.L.getD 2 0)

/-- Response of the sampler of the object. -/
def Gen.response : Box g.shape1.toNat g.shape2.toNat g.shape3.toNat → Fin 3 → Fin 3 → ℝ :=
  Spec.response g.root (transformNorm (g.rf.L.getD 0 0) (g.rf.L.getD 1 0) (g.rf.L.getD 2 0))

/-- The field sampled from the window of noise planes of block `j`: plane `m` of the noise holds the values of the stream
from `m * shape2 * shape3 * 3` on, and the window holds the planes from `j * Nx` on. -/
def Gen.periodic (γ : ℕ → ℝ) (j : ℕ) : Box g.shape1.toNat g.shape2.toNat g.shape3.toNat → Fin 3 → ℝ :=
  vfSample g.root (transformNorm (g.rf.L.getD 0 0) (g.rf.L.getD 1 0) (g.rf.L.getD 2 0)) fun y l =>
    γ ((((j * g.Nx + y.1.val) * g.shape2.toNat + y.2.1.val) * g.shape3.toNat + y.2.2.val) * 3 + l.val) * g.rf.noiseStd

/-- Number of values of the stream in a window. -/
def Gen.windowSize : ℕ := g.shape1.toNat * g.shape2.toNat * g.shape3.toNat * 3

variable {g}

theorem periodic_eq (γ : ℕ → ℝ) (j : ℕ) (x : Box g.shape1.toNat g.shape2.toNat g.shape3.toNat) (k : Fin 3) :
    g.periodic γ j x k = ∑ w, g.response (x - w.1) k w.2 * (γ (g.place j w) * g.rf.noiseStd) := by
  unfold Gen.periodic
  rw [vfSample_conv]
  rfl

/-- The values of block `j` before normalisation are those of the window field behind the buffer. -/
theorem raw_periodic (hg : g.Good) (γ : ℕ → ℝ) (j : ℕ) (r : Fin g.Nx) (b : Fin g.Ny) (c : Fin g.Nz) (k : Fin 3) :
    g.raw γ j (r, b, c, k) = g.periodic γ j (((g.nb.toNat + r : ℕ) : ZMod _), ((g.my.toNat + b : ℕ) : ZMod _), ((c : ℕ) : ZMod _)) k := by
  obtain ⟨e1, e2, e3, p1, p2, p3, q1, q2, q3⟩ := hg.shapes
  obtain ⟨g1, g2, g3⟩ := hg
  have hb := blendExt_nonneg g.bn
  have h1 := r.isLt
  have h2 := b.isLt
  have h3 := c.isLt
  unfold Gen.raw Gen.block
  rw [ofFn_entry _ (show r.val < (g.withStream γ).Nx from h1) (show b.val < (g.withStream γ).Ny from h2)
    (show c.val < (g.withStream γ).Nz from h3)]
  unfold Gen.sample
  simp only
  rw [dif_pos ⟨p1, p2, p3⟩]
  have a1 : (g.withStream γ).nb.toNat + r.val < (g.withStream γ).shape1.toNat := by
    change g.nb.toNat + _ < g.shape1.toNat; omega
  have a2 : (g.withStream γ).my.toNat + b.val < (g.withStream γ).shape2.toNat := by
    change g.my.toNat + _ < g.shape2.toNat; omega
  have a3 : c.val < (g.withStream γ).shape3.toNat := by
    change _ < g.shape3.toNat; omega
  rw [ofFn_entry _ a1 a2 a3]
  unfold Gen.periodic Gen.root
  have hw : (fun (x : Box g.shape1.toNat g.shape2.toNat g.shape3.toNat) i =>
      ((g.withStream γ).window j).entry x.1.val x.2.1.val x.2.2.val i) = fun y l =>
    γ ((((j * g.Nx + y.1.val) * g.shape2.toNat + y.2.1.val) * g.shape3.toNat + y.2.2.val) * 3 + l.val) * g.rf.noiseStd := by
    funext x i
    have hwin : (g.withStream γ).window j = Arr.ofFn g.shape1.toNat g.shape2.toNat g.shape3.toNat fun a b c i =>
        γ ((((j * g.Nx + a) * g.shape2.toNat + b) * g.shape3.toNat + c) * 3 + i.val) * g.rf.noiseStd := rfl
    rw [hwin, ofFn_entry _ (ZMod.val_lt _) (ZMod.val_lt _) (ZMod.val_lt _)]
  rw [← hw]
  rfl

/-- Moving a point of the window forward by `Nx` planes. -/
def Gen.ahead (g : Gen) : Box g.shape1.toNat g.shape2.toNat g.shape3.toNat := (((g.Nx : ℕ) : ZMod _), 0, 0)

/-- The next window in terms of the old one. -/
theorem place_next (hg : g.Good) (j : ℕ) (w : Box g.shape1.toNat g.shape2.toNat g.shape3.toNat × Fin 3) :
    g.place (j + 1) (w.1 - g.ahead, w.2) = if w.1.1.val < g.Nx then g.place j w + g.windowSize else g.place j w := by
  obtain ⟨e1, e2, e3, p1, p2, p3, q1, q2, q3⟩ := hg.shapes
  obtain ⟨g1, g2, g3⟩ := hg
  have hb := blendExt_nonneg g.bn
  have hlt : g.Nx < g.shape1.toNat := by omega
  obtain ⟨⟨a, b, c⟩, i⟩ := w
  have hval : (a - ((g.Nx : ℕ) : ZMod g.shape1.toNat)).val =
      if a.val < g.Nx then a.val + g.shape1.toNat - g.Nx else a.val - g.Nx := by
    have ha := ZMod.val_lt a
    have hnx : ((g.Nx : ℕ) : ZMod g.shape1.toNat).val = g.Nx := ZMod.val_cast_of_lt hlt
    split_ifs with h
    · have : a - ((g.Nx : ℕ) : ZMod g.shape1.toNat) = ((a.val + g.shape1.toNat - g.Nx : ℕ) : ZMod g.shape1.toNat) := by
        rw [Nat.cast_sub (by omega), Nat.cast_add, ZMod.natCast_self, add_zero, ZMod.natCast_zmod_val]
      rw [this, ZMod.val_cast_of_lt (by omega)]
    · have : a - ((g.Nx : ℕ) : ZMod g.shape1.toNat) = ((a.val - g.Nx : ℕ) : ZMod g.shape1.toNat) := by
        rw [Nat.cast_sub (by omega), ZMod.natCast_zmod_val]
      rw [this, ZMod.val_cast_of_lt (by omega)]
  have e4 : ((a, b, c) : Box g.shape1.toNat g.shape2.toNat g.shape3.toNat) - g.ahead = (a - ((g.Nx : ℕ) : ZMod _), b, c) := by
    unfold Gen.ahead
    ext <;> simp
  unfold Gen.place Gen.windowSize
  simp only [e4, hval]
  split_ifs with h
  · have : (j + 1) * g.Nx + (a.val + g.shape1.toNat - g.Nx) = j * g.Nx + a.val + g.shape1.toNat := by
      rw [add_mul, one_mul]; omega
    rw [this]
    ring
  · have : (j + 1) * g.Nx + (a.val - g.Nx) = j * g.Nx + a.val := by
      rw [add_mul, one_mul]; omega
    rw [this]

theorem periodic_next (hg : g.Good) (γ : ℕ → ℝ) (j : ℕ) (x : Box g.shape1.toNat g.shape2.toNat g.shape3.toNat) (k : Fin 3) :
    g.periodic γ (j + 1) x k = ∑ w, g.response (x + g.ahead - w.1) k w.2 *
      (γ (if w.1.1.val < g.Nx then g.place j w + g.windowSize else g.place j w) * g.rf.noiseStd) := by
  rw [periodic_eq]
  refine Fintype.sum_equiv ((Equiv.addRight g.ahead).prodCongr (Equiv.refl _)) _ _ fun w => ?_
  have hw := place_next hg j (w.1 + g.ahead, w.2)
  simp only [add_sub_cancel_right] at hw
  simp only [Equiv.prodCongr_apply, Prod.map, Equiv.coe_addRight, Equiv.refl_apply]
  rw [← hw]
  congr 2
  abel

end

/-! ### C98 -/

section
variable {g : Gen} [NeZero g.shape1.toNat] [NeZero g.shape2.toNat] [NeZero g.shape3.toNat]

/-- **C98.**  The window field of the next block continues the window field of the block: at every point it equals the old
field `Nx` planes further, plus the response to the exchange of the `Nx` oldest noise planes for the new ones.  (With
`x` the first point of a block, the displacements in this sum are more than the buffer away.) -/
theorem C98_continuation {env : GenEnv} {a : GenArgs} {q : ℕ} (ha : a.PosScales) (h : genInit env a = (.ok g, q)) (γ : ℕ → ℝ)
    (j : ℕ) (x : Box g.shape1.toNat g.shape2.toNat g.shape3.toNat) (k : Fin 3) :
    g.periodic γ (j + 1) x k = g.periodic γ j (x + g.ahead) k +
      ∑ w, if w.1.1.val < g.Nx then g.response (x + g.ahead - w.1) k w.2 * g.rf.noiseStd *
        (γ (g.place j w + g.windowSize) - γ (g.place j w)) else 0 := by
  have hg := genInit_good ha h
  rw [periodic_next hg, periodic_eq, ← Finset.sum_add_distrib]
  refine Finset.sum_congr rfl fun w _ => ?_
  split_ifs <;> ring

/-- **C98.**  The returned field, for any history and without a low-frequency part, is the window field behind the buffer,
divided by a gain for each block, plus the mean wind. -/
theorem C98_returned {env : GenEnv} {a : GenArgs} {q : ℕ} (ha : a.PosScales) (h : genInit env a = (.ok g, q))
    (hlow : a.low = none) (cs : List (ℕ × ProfileArgs)) (p : ProfileArgs) (n : ℕ) {f : Arr Fl}
    (hf : ((g.run cs).2.generate p n).1 = .ok f) :
    ∃ (j : ℕ) (gain : ℕ → ℝ), ∀ i < n, 0 < gain i ∧ ∀ (r : Fin g.Nx) (b : Fin g.Ny) (c : Fin g.Nz), ∃ w,
      f.val? ((g.run cs).2.total.planes.length + (i * g.Nx + r)) b c = some w ∧
      let u := g.periodic g.gauss (j + i) (((g.nb.toNat + r : ℕ) : ZMod _), ((g.my.toNat + b : ℕ) : ZMod _), ((c : ℕ) : ZMod _))
      w 0 = fin (u 0 / gain i) + Spec.meanWind p (c * (a.d3 / 2 ^ a.l3)) ∧ w 1 = fin (u 1 / gain i) ∧ w 2 = fin (u 2 / gain i) := by
  obtain ⟨j, -, hany, -, hval⟩ := generate_values ha h cs p n hf
  obtain ⟨-, -, -, -, -, -, ⟨-, -, d3⟩, ⟨-, -, l3⟩, -, -, -, -, -, -, hnone, -⟩ := genInit_ok h
  have hg := genInit_good ha h
  have hl := hnone hlow
  refine ⟨j, fun i => (g.block (j + i)).sd, fun i hi => ⟨?_, fun r b c => ⟨_, hval i hi r r.isLt b b.isLt c c.isLt, ?_⟩⟩⟩
  · have hb := block_ofFn g (j + i)
    have := (sd_mean_square (n1 := g.Nx) (n2 := g.Ny) (n3 := g.Nz) (fun a b c i' => (g.block (j + i)).entry a b c i')
      (by rw [← hb]; exact (hany i hi).1)).1
    rwa [← hb] at this
  · have hz : ((g.Nz - 1 : ℕ) : ℝ) = 2 ^ g.l3 := by unfold Gen.Nz; simp
    have hraw : ∀ k, (g.block (j + i)).entry r b c k = g.periodic g.gauss (j + i)
        (((g.nb.toNat + r : ℕ) : ZMod _), ((g.my.toNat + b : ℕ) : ZMod _), ((c : ℕ) : ZMod _)) k := by
      intro k
      rw [← raw_periodic hg]
      rfl
    unfold Gen.outAt Gen.profileAt Spec.meanWind
    rw [hl, hz, d3, l3]
    simp only [if_true, add_fin_zero, hraw]
    exact ⟨trivial, trivial, trivial⟩

/-- A stream of uncorrelated values of unit variance. -/
def Spec.WhiteStream {Ω : Type} [MeasurableSpace Ω] (μ : Measure Ω) (ξ : ℕ → Ω → ℝ) : Prop :=
  (∀ n, MemLp (ξ n) 2 μ) ∧ ∀ n m, ∫ ω, ξ n ω * ξ m ω ∂μ = if n = m then 1 else 0

/-- Second moment of two combinations of values of a white stream at distinct places. -/
theorem white_moment {Ω : Type} [MeasurableSpace Ω] {μ : Measure Ω} {ξ : ℕ → Ω → ℝ} (h : Spec.WhiteStream μ ξ) {ι : Type}
    [Fintype ι] {π : ι → ℕ} (hπ : Function.Injective π) (u v : ι → ℝ) :
    ∫ ω, (∑ i, u i * ξ (π i) ω) * (∑ i, v i * ξ (π i) ω) ∂μ = ∑ i, u i * v i := by
  have e : ∀ ω, (∑ i, u i * ξ (π i) ω) * (∑ i, v i * ξ (π i) ω) = ∑ i, ∑ i', u i * v i' * (ξ (π i) ω * ξ (π i') ω) := by
    intro ω
    rw [Finset.sum_mul_sum]
    exact Finset.sum_congr rfl fun i _ => Finset.sum_congr rfl fun i' _ => by ring
  have hint : ∀ i i', Integrable (fun ω => u i * v i' * (ξ (π i) ω * ξ (π i') ω)) μ := fun i i' =>
    ((h.1 _).integrable_mul (h.1 _)).const_mul _
  simp only [e]
  rw [integral_finsetSum _ fun i _ => integrable_finsetSum _ fun i' _ => hint i i']
  refine Finset.sum_congr rfl fun i _ => ?_
  rw [integral_finsetSum _ fun i' _ => hint i i']
  simp only [integral_const_mul, h.2, hπ.eq_iff]
  simp

/-- Places of the old window and of the window behind it. -/
theorem two_windows_injective (hg : g.Good) (j : ℕ) : Function.Injective
    (Sum.elim (g.place j) fun w => g.place j w + g.windowSize :
      (Box g.shape1.toNat g.shape2.toNat g.shape3.toNat × Fin 3) ⊕ (Box g.shape1.toNat g.shape2.toNat g.shape3.toNat × Fin 3) → ℕ) := by
  have hlt : ∀ w w', g.place j w < g.place j w' + g.windowSize := by
    intro w w'
    have h1 := (place_bounds g j w).2
    have h2 := (place_bounds g j w').1
    have : (j * g.Nx + g.shape1.toNat) * (g.shape2.toNat * g.shape3.toNat * 3) = j * g.stride + g.windowSize := by
      unfold Gen.stride Gen.windowSize; ring
    omega
  rintro (w | w) (w' | w') he
  · exact congrArg _ (Gen.place_inj hg j he)
  · exact absurd he (hlt w w').ne
  · exact absurd he.symm (hlt w' w).ne
  · simp only [Sum.elim_inr, Nat.add_right_cancel_iff] at he
    exact congrArg _ (Gen.place_inj hg j he)

theorem periodic_sum (γ : ℕ → ℝ) (j : ℕ) (x : Box g.shape1.toNat g.shape2.toNat g.shape3.toNat) (k : Fin 3) :
    g.periodic γ j x k = ∑ i, (Sum.elim (fun w => g.response (x - w.1) k w.2 * g.rf.noiseStd) (fun _ => 0) i) *
      γ (Sum.elim (g.place j) (fun w => g.place j w + g.windowSize) i) := by
  rw [periodic_eq, Fintype.sum_sum_type]
  simp only [Sum.elim_inl, Sum.elim_inr, zero_mul, Finset.sum_const_zero, add_zero]
  exact Finset.sum_congr rfl fun w _ => by ring

theorem periodic_next_sum (hg : g.Good) (γ : ℕ → ℝ) (j : ℕ) (x : Box g.shape1.toNat g.shape2.toNat g.shape3.toNat) (k : Fin 3) :
    g.periodic γ (j + 1) x k = ∑ i, (Sum.elim
        (fun w => if w.1.1.val < g.Nx then 0 else g.response (x + g.ahead - w.1) k w.2 * g.rf.noiseStd)
        (fun w => if w.1.1.val < g.Nx then g.response (x + g.ahead - w.1) k w.2 * g.rf.noiseStd else 0) i) *
      γ (Sum.elim (g.place j) (fun w => g.place j w + g.windowSize) i) := by
  rw [periodic_next hg, Fintype.sum_sum_type, ← Finset.sum_add_distrib]
  simp only [Sum.elim_inl, Sum.elim_inr]
  refine Finset.sum_congr rfl fun w _ => ?_
  split_ifs <;> ring

variable {Ω : Type} [MeasurableSpace Ω] {μ : Measure Ω} {ξ : ℕ → Ω → ℝ}

/-- **C98.**  Mean square of the window field, and of the jump between the field of the next block and the continuation of
the field of the block: the variance is the noise variance times the squared response summed over all displacements, the jump
twice the noise variance times the squared response summed over the displacements to the exchanged planes. -/
theorem C98_jump (hξ : Spec.WhiteStream μ ξ) {env : GenEnv} {a : GenArgs} {q : ℕ} (ha : a.PosScales)
    (h : genInit env a = (.ok g, q)) (j : ℕ) (x : Box g.shape1.toNat g.shape2.toNat g.shape3.toNat) (k : Fin 3) :
    ∫ ω, g.periodic (fun n => ξ n ω) j x k ^ 2 ∂μ = g.rf.noiseStd ^ 2 * ∑ d, ∑ l, g.response d k l ^ 2 ∧
    ∫ ω, (g.periodic (fun n => ξ n ω) (j + 1) x k - g.periodic (fun n => ξ n ω) j (x + g.ahead) k) ^ 2 ∂μ =
      2 * g.rf.noiseStd ^ 2 * ∑ y, if y.1.val < g.Nx then ∑ l, g.response (x + g.ahead - y) k l ^ 2 else 0 := by
  have hg := genInit_good ha h
  constructor
  · simp only [sq, periodic_sum]
    rw [white_moment hξ (two_windows_injective hg j), Fintype.sum_sum_type]
    simp only [Sum.elim_inl, Sum.elim_inr, mul_zero, Finset.sum_const_zero, add_zero]
    rw [Fintype.sum_prod_type, Finset.mul_sum]
    refine Fintype.sum_equiv (Equiv.subLeft x) _ _ fun y => ?_
    rw [Finset.mul_sum]
    simp only [Equiv.subLeft_apply]
    exact Finset.sum_congr rfl fun l _ => by ring
  · have e : ∀ ω, g.periodic (fun n => ξ n ω) (j + 1) x k - g.periodic (fun n => ξ n ω) j (x + g.ahead) k = ∑ i, (Sum.elim
        (fun w : Box g.shape1.toNat g.shape2.toNat g.shape3.toNat × Fin 3 =>
          if w.1.1.val < g.Nx then -(g.response (x + g.ahead - w.1) k w.2 * g.rf.noiseStd) else 0)
        (fun w => if w.1.1.val < g.Nx then g.response (x + g.ahead - w.1) k w.2 * g.rf.noiseStd else 0) i) *
      ξ (Sum.elim (g.place j) (fun w => g.place j w + g.windowSize) i) ω := by
      intro ω
      rw [C98_continuation ha h, add_sub_cancel_left, Fintype.sum_sum_type, ← Finset.sum_add_distrib]
      simp only [Sum.elim_inl, Sum.elim_inr]
      refine Finset.sum_congr rfl fun w _ => ?_
      split_ifs <;> ring
    simp only [sq, e]
    rw [white_moment hξ (two_windows_injective hg j), Fintype.sum_sum_type]
    simp only [Sum.elim_inl, Sum.elim_inr]
    rw [← Finset.sum_add_distrib, Fintype.sum_prod_type, Finset.mul_sum]
    refine Finset.sum_congr rfl fun y _ => ?_
    split_ifs with hy
    · rw [Finset.mul_sum]
      exact Finset.sum_congr rfl fun l _ => by ring
    · simp

theorem card_val_lt {n m : ℕ} [NeZero n] (h : m ≤ n) : (Finset.univ.filter fun a : ZMod n => a.val < m).card = m := by
  have : (Finset.range m).card = (Finset.univ.filter fun a : ZMod n => a.val < m).card := by
    refine Finset.card_nbij' (fun i => (i : ZMod n)) ZMod.val ?_ ?_ ?_ ?_
    · intro i hi
      simp only [Finset.coe_range, Set.mem_Iio] at hi
      simp only [Finset.coe_filter, Finset.mem_univ, true_and, Set.mem_setOf_eq]
      rwa [ZMod.val_cast_of_lt (by omega)]
    · intro a ha
      simp only [Finset.coe_filter, Finset.mem_univ, true_and, Set.mem_setOf_eq] at ha
      simpa using ha
    · intro i hi
      simp only [Finset.coe_range, Set.mem_Iio] at hi
      exact ZMod.val_cast_of_lt (by omega)
    · intro a _
      exact ZMod.natCast_zmod_val a
  rw [← this, Finset.card_range]

/-- **C98.**  On average over all points of the window the mean square of the jump is `2 Nx / shape1` times the mean square of
the field, whatever the spectrum: the buffer moves the jump away from the returned planes, it does not make it smaller. -/
theorem C98_jump_average (hξ : Spec.WhiteStream μ ξ) {env : GenEnv} {a : GenArgs} {q : ℕ} (ha : a.PosScales)
    (h : genInit env a = (.ok g, q)) (j : ℕ) (k : Fin 3) :
    ∑ x, ∫ ω, (g.periodic (fun n => ξ n ω) (j + 1) x k - g.periodic (fun n => ξ n ω) j (x + g.ahead) k) ^ 2 ∂μ =
      2 * (g.Nx / g.shape1.toNat) * ∑ x, ∫ ω, g.periodic (fun n => ξ n ω) j x k ^ 2 ∂μ := by
  have hg := genInit_good ha h
  obtain ⟨e1, e2, e3, p1, p2, p3, q1, q2, q3⟩ := hg.shapes
  obtain ⟨g1, g2, g3⟩ := hg
  have hb := blendExt_nonneg g.bn
  have hle : g.Nx ≤ g.shape1.toNat := by omega
  simp only [(C98_jump hξ ha h j _ k).1, (C98_jump hξ ha h j _ k).2]
  set R := ∑ d, ∑ l, g.response d k l ^ 2 with hR
  rw [← Finset.mul_sum, Finset.sum_comm]
  have hin : ∀ y : Box g.shape1.toNat g.shape2.toNat g.shape3.toNat,
      ∑ x, (if y.1.val < g.Nx then ∑ l, g.response (x + g.ahead - y) k l ^ 2 else 0) = if y.1.val < g.Nx then R else 0 := by
    intro y
    split_ifs
    · refine Fintype.sum_equiv (Equiv.addRight (g.ahead - y)) _ _ fun x => ?_
      simp only [Equiv.coe_addRight, add_sub_assoc]
    · simp
  simp only [hin]
  have hcount : ∑ y : Box g.shape1.toNat g.shape2.toNat g.shape3.toNat, (if y.1.val < g.Nx then R else 0) =
      g.Nx * (g.shape2.toNat * g.shape3.toNat) * R := by
    have hz : ∀ v : ZMod g.shape1.toNat, ∑ _z : ZMod g.shape2.toNat × ZMod g.shape3.toNat, (if v.val < g.Nx then R else 0) =
        (g.shape2.toNat * g.shape3.toNat : ℝ) * (if v.val < g.Nx then R else 0) := by
      intro v
      rw [Finset.sum_const, Finset.card_univ, Fintype.card_prod, ZMod.card, ZMod.card, nsmul_eq_mul]
      push_cast
      rfl
    rw [Fintype.sum_prod_type, Finset.sum_congr rfl fun v _ => hz v, ← Finset.mul_sum, ← Finset.sum_filter, Finset.sum_const,
      card_val_lt hle, nsmul_eq_mul]
    ring
  rw [hcount]
  simp only [Finset.sum_const, Finset.card_univ, Fintype.card_prod, ZMod.card, nsmul_eq_mul]
  have : (g.shape1.toNat : ℝ) ≠ 0 := by exact_mod_cast p1.ne'
  push_cast
  field_simp

/-- **C98.**  Covariance across the seam: the covariance of the two points in one window field, without the part due to the
exchanged planes. -/
theorem C98_covariance (hξ : Spec.WhiteStream μ ξ) {env : GenEnv} {a : GenArgs} {q : ℕ} (ha : a.PosScales)
    (h : genInit env a = (.ok g, q)) (j : ℕ) (x y : Box g.shape1.toNat g.shape2.toNat g.shape3.toNat) (k l : Fin 3) :
    ∫ ω, g.periodic (fun n => ξ n ω) j x k * g.periodic (fun n => ξ n ω) (j + 1) y l ∂μ =
      ∫ ω, g.periodic (fun n => ξ n ω) j x k * g.periodic (fun n => ξ n ω) j (y + g.ahead) l ∂μ -
      g.rf.noiseStd ^ 2 * ∑ z, if z.1.val < g.Nx then ∑ m, g.response (x - z) k m * g.response (y + g.ahead - z) l m else 0 := by
  have hg := genInit_good ha h
  simp only [periodic_next_sum hg]
  simp only [periodic_sum]
  rw [white_moment hξ (two_windows_injective hg j), white_moment hξ (two_windows_injective hg j), Fintype.sum_sum_type,
    Fintype.sum_sum_type]
  simp only [Sum.elim_inl, Sum.elim_inr, zero_mul, mul_zero, Finset.sum_const_zero, add_zero]
  have sp : ∀ F : Box g.shape1.toNat g.shape2.toNat g.shape3.toNat × Fin 3 → ℝ, ∑ w, F w = ∑ z, ∑ m, F (z, m) :=
    fun F => Fintype.sum_prod_type F
  rw [sp, sp, Finset.mul_sum, ← Finset.sum_sub_distrib]
  refine Finset.sum_congr rfl fun z _ => ?_
  split_ifs with hz
  · rw [Finset.mul_sum, ← Finset.sum_sub_distrib]
    exact Finset.sum_congr rfl fun m _ => by ring
  · simp

end

end
end Verif
