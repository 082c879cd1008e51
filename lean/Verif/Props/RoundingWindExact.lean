import Verif.Props.RoundingExact
import Verif.Props.RoundingWindShear
import Verif.Props.RoundingNet
import Verif.Props.RoundingWindLow

/-!
# The rounded wind field in exact arithmetic

The rounded model of `generate` (`WindRounded`, with the rounded kernel, frequencies, norms and mean wind), with exact operations, gives
exactly the field that the generator returns (C145, C147, C151, C152).
-/

namespace Verif
open Fl

noncomputable section

/-- Arguments of a mean wind profile without a singular value: the logarithmic law with reference height above the roughness height, or the
power law with a positive exponent. -/
def Spec.SmoothProfile (p : ProfileArgs) : Prop :=
  0 < p.uref ∧ 0 < p.zref ∧ (p.ptype = "LOG" → 0 < p.z0 ∧ p.z0 < p.zref) ∧ (p.ptype ≠ "LOG" → ∃ α, p.plexp = some α ∧ 0 < α)

theorem meanWind_exact {p : ProfileArgs} (hp : Spec.SmoothProfile p) {d3 : ℝ} (hd : 0 < d3) (l : ℕ) :
    ∃ (m : ℕ → ℝ) (U : ℝ), ∀ c : ℕ, c < 2 ^ l + 1 → Spec.meanWind p (c * (d3 / 2 ^ l)) = fin (m c) ∧ |m c| ≤ U ∧
      |Fmt.exact.meanWind p (Fmt.exact.zSpace d3 (2 ^ l + 1) c) - m c| ≤ 0 := by
  obtain ⟨hu, hz, h1, h2⟩ := hp
  by_cases ht : p.ptype = "LOG"
  · obtain ⟨z1, z2⟩ := h1 ht
    have D0 := Real.log_pos ((one_lt_div z1).2 z2)
    obtain ⟨m, hm⟩ := C145_log Fmt.exact hd ht z1 z2 hu (by rw [exactF_e, mul_zero]; exact D0.le) l
    refine ⟨m, p.uref / Real.log (p.zref / p.z0) * Real.log (d3 / p.z0 + 1), fun c hc => ?_⟩
    obtain ⟨q1, q2, q3⟩ := hm c hc
    rw [exactF_e] at q3
    simp only [mul_zero, Real.exp_zero, sub_self, zero_mul, add_zero] at q3
    exact ⟨q1, q2, q3⟩
  · obtain ⟨α, ha, a0⟩ := h2 ht
    obtain ⟨m, hm⟩ := C145_power Fmt.exact hd ht ha a0 hz hu (Real.zero_rpow a0.ne') l
    refine ⟨m, p.uref * (d3 / p.zref) ^ α, fun c hc => ?_⟩
    obtain ⟨q1, q2, q3⟩ := hm c hc
    rw [exactF_e] at q3
    simp only [mul_zero, Real.exp_zero, sub_self, zero_mul] at q3
    exact ⟨q1, q2, q3⟩

theorem eq_of_rms {ι : Type*} [Fintype ι] {w u : ι → ℝ} {N : ℕ} (hN : 0 < N) (h : Real.sqrt ((∑ x, (w x - u x) ^ 2) / N) ≤ 0) : w = u := by
  have h0 : (∑ x, (w x - u x) ^ 2) / (N : ℝ) ≤ 0 := Real.sqrt_eq_zero'.1 (le_antisymm h (Real.sqrt_nonneg _))
  have hp : (0 : ℝ) < N := Nat.cast_pos.2 hN
  have h1 : ∑ x, (w x - u x) ^ 2 ≤ 0 := by
    by_contra hc
    exact absurd h0 (not_le.2 (div_pos (not_le.1 hc) hp))
  have h2 := (Finset.sum_eq_zero_iff_of_nonneg fun x _ => sq_nonneg _).1 (le_antisymm h1 (Finset.sum_nonneg fun x _ => sq_nonneg _))
  funext x
  exact sub_eq_zero.1 (pow_eq_zero_iff two_ne_zero |>.1 (h2 x (Finset.mem_univ x)))

theorem exists_bound {ι : Type*} [Fintype ι] (F : ι → ℝ) : ∃ C, 0 ≤ C ∧ ∀ k, F k ≤ C :=
  ⟨∑ k, |F k|, Finset.sum_nonneg fun _ _ => abs_nonneg _, fun k =>
    (le_abs_self _).trans (Finset.single_le_sum (f := fun k => |F k|) (fun _ _ => abs_nonneg _) (Finset.mem_univ k))⟩

variable {env : GenEnv} {a : GenArgs} {g : Gen} {q : ℕ} [NeZero g.shape1.toNat] [NeZero g.shape2.toNat] [NeZero g.shape3.toNat]

/-- **C145** With exact operations and transforms the rounded model of the von Karman wind is the field that `generate` returns, block by
block and value by value. -/
theorem C145_exact (ha : a.PosScales) (h : genInit env a = (.ok g, q)) (hlow : a.low = none)
    {L E0 : ℝ} (hker : g.kernel = .vk L E0) (hL : 0 < L) (hE : 0 ≤ E0)
    {cs : List (ℕ × ProfileArgs)} (hcs : ∀ r ∈ (g.run cs).1, ∃ f, r = .ok f) {p : ProfileArgs} (hp : Spec.SmoothProfile p) {n : ℕ}
    {f : Arr Fl} (hf : ((g.run cs).2.generate p n).1 = .ok f) {i d : ℕ} (hi : i < n) {w : g.Cell → ℝ}
    (hw : WindRounded Fmt.exact g ((cs.map Prod.fst).sum + i) p (Fmt.exact.vkHalf L E0 (Fmt.exact.freqOf
      (Fmt.exact.period a.d1 a.l1 g.shape1.toNat) (Fmt.exact.period a.d2 a.l2 g.shape2.toNat)
      (Fmt.exact.period a.d3 a.l3 g.shape3.toNat))) (Fmt.exact.normOf a g)
      (Fmt.exact.noiseStd a.d1 a.d2 a.d3 a.l1 a.l2 a.l3) 0 0 0 d w) (r : Fin g.Nx) (b : Fin g.Ny) (c : Fin g.Nz) :
    f.val? (((cs.map Prod.fst).sum + i) * g.Nx + r) b c = some fun k => fin (w (r, b, c, k)) := by
  obtain ⟨-, -, -, -, -, -, -, ⟨-, -, l3⟩, -⟩ := genInit_ok h
  have hNz : g.Nz = 2 ^ a.l3 + 1 := by unfold Gen.Nz; rw [l3]
  obtain ⟨m, U, hm⟩ := meanWind_exact hp ha.1.2.2 a.l3
  obtain ⟨C, C0, hC⟩ := exists_bound fun k : Box g.shape1.toNat g.shape2.toNat g.shape3.toNat =>
    let q := Fmt.exact.freqOf (Fmt.exact.period a.d1 a.l1 g.shape1.toNat) (Fmt.exact.period a.d2 a.l2 g.shape2.toNat)
      (Fmt.exact.period a.d3 a.l3 g.shape3.toNat) k
    Real.log (1 + L ^ 2 * (q.k1 * q.k1 + q.k2 * q.k2 + q.k3 * q.k3))
  obtain ⟨u, hu, hb⟩ := C145_vk Fmt.exact (by rw [exactF_e]; norm_num) ha h hlow hker hL hE (le_max_left |Real.log L| C)
    (fun k => (hC k).trans (le_max_right _ _)) hcs hf (fun c hc => hm c (by rw [← hNz]; exact hc)) le_rfl le_rfl le_rfl hi hw
  rw [exactF_e] at hb
  simp only [mul_zero, Real.exp_zero, sub_self, zero_mul, add_zero, one_pow, mul_one, zero_div] at hb
  have hN : 0 < g.Nx * g.Ny * g.Nz * 3 := by unfold Gen.Nx Gen.Ny Gen.Nz; positivity
  rw [eq_of_rms hN hb]
  exact hu r b c

/-- **C147** The same for the Mann generator, with the hypergeometric function computed exactly. -/
theorem C147_exact (ha : a.PosScales) (h : genInit env a = (.ok g, q)) (hlow : a.low = none) {hyp : ℝ → ℝ} (hyp_ok : IsMannHyp hyp)
    {L E0 Gamma : ℝ} (hker : g.kernel = .mann hyp L E0 Gamma) (hL : 0 < L) (hE : 0 ≤ E0)
    {cs : List (ℕ × ProfileArgs)} (hcs : ∀ r ∈ (g.run cs).1, ∃ f, r = .ok f) {p : ProfileArgs} (hp : Spec.SmoothProfile p) {n : ℕ}
    {f : Arr Fl} (hf : ((g.run cs).2.generate p n).1 = .ok f) {i d : ℕ} (hi : i < n) {w : g.Cell → ℝ}
    (hw : WindRounded Fmt.exact g ((cs.map Prod.fst).sum + i) p
      (ShearFmt.exact.shearHalf L E0 (ShearFmt.exact.mannBeta hyp L Gamma) (Spec.freqComp Fmt.exact a g)) (Fmt.exact.normOf a g)
      (Fmt.exact.noiseStd a.d1 a.d2 a.d3 a.l1 a.l2 a.l3) 0 0 0 d w) (r : Fin g.Nx) (b : Fin g.Ny) (c : Fin g.Nz) :
    f.val? (((cs.map Prod.fst).sum + i) * g.Nx + r) b c = some fun k => fin (w (r, b, c, k)) := by
  obtain ⟨-, -, -, -, -, -, -, ⟨-, -, l3⟩, -⟩ := genInit_ok h
  have hNz : g.Nz = 2 ^ a.l3 + 1 := by unfold Gen.Nz; rw [l3]
  obtain ⟨m, U, hm⟩ := meanWind_exact hp ha.1.2.2 a.l3
  obtain ⟨B, -, hB⟩ := exists_bound fun k => 1 + |(mannBeta hyp L Gamma (Spec.freqAt g k)).toReal|
  obtain ⟨C1, c1, h1⟩ := exists_bound fun k =>
    |Real.log (((Spec.freqAt g k).k1 ^ 2 + (Spec.freqAt g k).k2 ^ 2 + (Spec.freqAt g k).k3 ^ 2) * L ^ 2)|
  obtain ⟨C2, c2, h2⟩ := exists_bound fun k => Real.log (1 + L ^ 2 * ((Spec.freqAt g k).k1 ^ 2 + (Spec.freqAt g k).k2 ^ 2 +
    ((Spec.freqAt g k).k3 + (mannBeta hyp L Gamma (Spec.freqAt g k)).toReal * (Spec.freqAt g k).k1) ^ 2))
  have l0 := abs_nonneg (Real.log L)
  have e0 : ShearFmt.exact.toFmt.e = 0 := exactS_e
  obtain ⟨u, hu, hb⟩ := C147_mann ShearFmt.exact (by rw [e0]; norm_num) ha h hlow hyp_ok (hypF := hyp) (ω := 0)
    (fun z _ => LogNear.refl _) hker hL hE (R := |Real.log L| + C1 + C2) (by linarith)
    (fun k => ⟨hB k, fun _ => (h1 k).trans (by linarith), (h2 k).trans (by linarith)⟩) (by rw [e0]; simp) hcs hf
    (fun c hc => hm c (by rw [← hNz]; exact hc)) le_rfl le_rfl le_rfl hi hw
  rw [e0] at hb
  simp only [mul_zero, Real.exp_zero, sub_self, zero_mul, add_zero, one_pow, mul_one, zero_div] at hb
  have hN : 0 < g.Nx * g.Ny * g.Nz * 3 := by unfold Gen.Nx Gen.Ny Gen.Nz; positivity
  rw [eq_of_rms hN hb]
  exact hu r b c

/-- **C152** The same for the DRD generator, whatever the activations of its network, if the network does not vanish at the scaled
wavevectors of the grid. -/
theorem C152_exact_wind (ha : a.PosScales) (h : genInit env a = (.ok g, q)) (hlow : a.low = none) {dn : ℕ} {net : TauNet}
    {L E0 Gamma hr : ℝ} (hker : g.kernel = .nn net L E0 Gamma hr) (hL : 0 < L) (hE : 0 ≤ E0)
    (hnet : ∀ k, let p := Spec.freqAt g k
      p.vec ≠ 0 → 0 < vecNorm (net.mlpForward [|p.k1 * hr|, |p.k2 * hr|, |p.k3 * hr|]))
    {b' : K3 → ℝ} (hb : ∀ k, ShearFmt.exact.NnBetaOf dn net Gamma hr k (b' k))
    {cs : List (ℕ × ProfileArgs)} (hcs : ∀ r ∈ (g.run cs).1, ∃ f, r = .ok f) {p : ProfileArgs} (hp : Spec.SmoothProfile p) {n : ℕ}
    {f : Arr Fl} (hf : ((g.run cs).2.generate p n).1 = .ok f) {i d : ℕ} (hi : i < n) {w : g.Cell → ℝ}
    (hw : WindRounded Fmt.exact g ((cs.map Prod.fst).sum + i) p
      (ShearFmt.exact.shearHalf L E0 b' (Spec.freqComp Fmt.exact a g)) (Fmt.exact.normOf a g)
      (Fmt.exact.noiseStd a.d1 a.d2 a.d3 a.l1 a.l2 a.l3) 0 0 0 d w) (r : Fin g.Nx) (b : Fin g.Ny) (c : Fin g.Nz) :
    f.val? (((cs.map Prod.fst).sum + i) * g.Nx + r) b c = some fun k => fin (w (r, b, c, k)) := by
  obtain ⟨-, -, -, -, -, -, -, ⟨-, -, l3⟩, -⟩ := genInit_ok h
  have hNz : g.Nz = 2 ^ a.l3 + 1 := by unfold Gen.Nz; rw [l3]
  obtain ⟨m, U, hm⟩ := meanWind_exact hp ha.1.2.2 a.l3
  have e0 : ShearFmt.exact.toFmt.e = 0 := exactS_e
  have near0 : ∀ {x y : ℝ}, LogNear (9 * Fmt.exact.e) x y → y = x := fun {x y} hn => by
    rw [exactF_e, mul_zero] at hn
    have := hn.sub_le
    rw [mul_comm] at this
    exact eq_of_rel this
  have hfreq : ∀ k, Spec.freqComp Fmt.exact a g k = Spec.freqAt g k := fun k => by
    obtain ⟨m1, m2, m3⟩ := freqComp_near Fmt.exact h k
    have q1 := near0 m1
    have q2 := near0 m2
    have q3 := near0 m3
    revert q1 q2 q3
    rcases Spec.freqComp Fmt.exact a g k with ⟨x1, x2, x3⟩
    rcases Spec.freqAt g k with ⟨y1, y2, y3⟩
    rintro rfl rfl rfl
    rfl
  have life : ∀ k, nnBeta net Gamma hr (Spec.freqAt g k) = fin (b' (Spec.freqAt g k)) := fun k =>
    (C152_exact net).2.2.1 Gamma hr _ _ (hnet k) (hb _)
  obtain ⟨B, -, hB⟩ := exists_bound fun k => 1 + |b' (Spec.freqAt g k)|
  obtain ⟨C, c0, hC⟩ := exists_bound fun k => Real.log (1 + L ^ 2 * ((Spec.freqAt g k).k1 ^ 2 + (Spec.freqAt g k).k2 ^ 2 +
    ((Spec.freqAt g k).k3 + b' (Spec.freqAt g k) * (Spec.freqAt g k).k1) ^ 2))
  have l0 := abs_nonneg (Real.log L)
  obtain ⟨u, hu, hb⟩ := C147_shear ShearFmt.exact ha h hlow (α := 0) (B := B) (R := |Real.log L| + C) hL hE (by linarith)
    (b := b') (b' := b')
    (fun k => by
      rw [hker]
      change nnKernel net L E0 Gamma hr _ = _
      unfold nnKernel
      rw [life k])
    (fun k => by
      have := hfreq k
      change LogNear 0 (b' (Spec.freqAt g k)) (b' (Spec.freqComp Fmt.exact a g k))
      rw [this]
      exact LogNear.refl _)
    (fun k => ⟨hB k, (hC k).trans (by linarith)⟩) (by rw [e0]; simp) hcs hf
    (fun c hc => hm c (by rw [← hNz]; exact hc)) le_rfl le_rfl le_rfl hi hw
  rw [e0] at hb
  simp only [mul_zero, Real.exp_zero, sub_self, zero_mul, add_zero, one_pow, mul_one, zero_div] at hb
  have hN : 0 < g.Nx * g.Ny * g.Nz * 3 := by unfold Gen.Nx Gen.Ny Gen.Nz; positivity
  rw [eq_of_rms hN hb]
  exact hu r b c

/-- **C151** With exact operations and transforms and the exact `Spectrum_half`, the rounded wind of any generator plus the exact
low-frequency parts is the field that the generator with a low-frequency part returns. -/
theorem C151_exact (ha : a.PosScales) (h : genInit env a = (.ok g, q)) (hnone : a.low = none) {cfg : LFConfig} (hc : cfg.Pos)
    {lf : LowFreq} (hlf : lfInit cfg = .ok lf) {g' : Gen} {q' : ℕ} (h' : genInit env { a with low := some cfg } = (.ok g', q'))
    {cs : List (ℕ × ProfileArgs)} (hcs : ∀ r ∈ (g'.run cs).1, ∃ f, r = .ok f) {p : ProfileArgs} (hp : Spec.SmoothProfile p) {n : ℕ}
    {f : Arr Fl} (hf : ((g'.run cs).2.generate p n).1 = .ok f) {i d : ℕ} (hi : i < n) {w : g.Cell → ℝ}
    (hw : WindRounded Fmt.exact g ((cs.map Prod.fst).sum + i) p
      (spectrumHalf (spectrumOf g.kernel.eval (g.rf.L.getD 0 0) (g.rf.L.getD 1 0) (g.rf.L.getD 2 0))) (Fmt.exact.normOf a g)
      (Fmt.exact.noiseStd a.d1 a.d2 a.d3 a.l1 a.l2 a.l3) 0 0 0 d w) (r : Fin g.Nx) (b : Fin g.Ny) (c : Fin g.Nz) :
    let low := fun (r b : ℕ) (k : Fin 3) => Spec.lowPart lf (Spec.lowField lf env.glob env.globPos) k
        (Spec.lowPoint a lf i r b).1 (Spec.lowPoint a lf i r b).2
    f.val? (((cs.map Prod.fst).sum + i) * g.Nx + r) b c =
      some fun k => fin (Fmt.exact.lowSum (w (r, b, c, k)) (low r b 0) (low r b 1) k) := by
  intro low
  obtain ⟨-, -, -, -, -, -, -, ⟨-, -, l3⟩, -⟩ := genInit_ok h
  have hNz : g.Nz = 2 ^ a.l3 + 1 := by unfold Gen.Nz; rw [l3]
  obtain ⟨m, U, hm⟩ := meanWind_exact hp ha.1.2.2 a.l3
  obtain ⟨M, M0, hM⟩ := exists_bound fun k : Box g.shape1.toNat g.shape2.toNat g.shape3.toNat => Real.sqrt (∑ i, ∑ l,
    ‖spectrumOf g.kernel.eval (g.rf.L.getD 0 0) (g.rf.L.getD 1 0) (g.rf.L.getD 2 0) k i l‖ ^ 2)
  obtain ⟨V, -, hV⟩ := exists_bound fun x : Fin g.Nx × Fin g.Ny => |low x.1 x.2 0| + |low x.1 x.2 1|
  obtain ⟨u, hu, hb⟩ := C151_generate Fmt.exact ha h hnone hc hlf h' hcs hf (fun c hc => hm c (by rw [← hNz]; exact hc))
    (Sh := spectrumHalf (spectrumOf g.kernel.eval (g.rf.L.getD 0 0) (g.rf.L.getD 1 0) (g.rf.L.getD 2 0)))
    (κ := 0) le_rfl le_rfl le_rfl le_rfl M0
    (fun k => ⟨(Real.sqrt_le_left M0).1 (hM k), by simp⟩) hi hw (Q := 0) (V := V) (v1 := fun r b => low r b 0) (v2 := fun r b => low r b 1)
    (fun r hr b hb => by
      have := hV (⟨r, hr⟩, ⟨b, hb⟩)
      simp only at this
      have n0 := abs_nonneg (low r b 0)
      have n1 := abs_nonneg (low r b 1)
      exact ⟨by simp [low], by simp [low], (by linarith : |low r b 0| ≤ V), (by linarith : |low r b 1| ≤ V)⟩)
  rw [exactF_e] at hb
  simp only [mul_zero, Real.exp_zero, sub_self, zero_mul, add_zero, one_pow, mul_one, zero_div] at hb
  unfold Spec.rms at hb
  have hN : 0 < Fintype.card g.Cell := Fintype.card_pos_iff.2 ⟨(r, b, c, 0)⟩
  have e := eq_of_rms hN hb
  rw [hu r b c]
  congr 1
  funext k
  rw [← congrFun e (r, b, c, k)]

/-- Profiles: the power law with exponent `1/5` and the logarithmic law with roughness 3 cm, 11.4 m/s at 90 m. -/
example : Spec.SmoothProfile ⟨90, 11.4, 0.03, "PL", some (1 / 5)⟩ ∧ Spec.SmoothProfile ⟨90, 11.4, 0.03, "LOG", none⟩ := by
  refine ⟨⟨by norm_num, by norm_num, fun h => absurd h (by decide), fun _ => ⟨1 / 5, rfl, by norm_num⟩⟩,
    by norm_num, by norm_num, fun _ => by norm_num, fun h => absurd rfl h⟩

end
end Verif
