import Verif.Props.GeneratorSeam

/-!
# Lateral mirror symmetry of the generated turbulence (C116)

The mean wind blows along the first axis and is sheared along the third, so the second axis has no preferred direction.
-/

namespace Verif
open Fl

noncomputable section
open Classical MeasureTheory ProbabilityTheory Filter Topology

/-- Factor of component `i` under a reflection of the second axis. -/
def Spec.side (i : Fin 3) : ℝ := if i = 1 then -1 else 1

theorem side_sq (i : Fin 3) : Spec.side i * Spec.side i = 1 := by unfold Spec.side; split_ifs <;> norm_num

theorem side_abs (i : Fin 3) : Spec.side i = 1 ∨ Spec.side i = -1 := by unfold Spec.side; split_ifs <;> simp

/-- The wavevector reflected in the second axis. -/
def K3.mirror (k : K3) : K3 := ⟨k.k1, -k.k2, k.k3⟩

theorem zc_mirror (k : K3) (b : ℝ) : zc k.mirror b = ((zc k b).1, -(zc k b).2.1, (zc k b).2.2) := by
  have hkk : kkR k.mirror = kkR k := by simp [kkR, K3.mirror]
  rcases eq_or_ne k.k1 0 with h1 | h1
  · rcases eq_or_ne (kkR k) 0 with h | h
    · rw [zc_zero h, zc_zero (hkk.trans h)]; simp
    · rw [zc_k1_zero h1 h, zc_k1_zero (show k.mirror.k1 = 0 from h1) (by rwa [hkk])]; simp
  · rw [zc_generic h1, zc_generic (show k.mirror.k1 ≠ 0 from h1)]
    have e30 : k30R k.mirror b = k30R k b := rfl
    have e0 : kk0R k.mirror b = kk0R k b := by simp [kk0R, k30R, K3.mirror]
    have es : sR k.mirror = sR k := by simp [sR, K3.mirror]
    have eat : atR k.mirror b = atR k b := by unfold atR; rw [e0, e30, es]; rfl
    have ec1 : c1R k.mirror b = c1R k b := by unfold c1R; rw [e0, e30, es, hkk]; rfl
    have ec2 : c2R k.mirror b = -c2R k b := by
      unfold c2R
      rw [e0, es, eat]
      change -k.k2 * _ / _ * _ = _
      ring
    unfold z1R z2R z3R
    rw [ec1, ec2, e0, hkk]
    change (_ - -k.k2 / k.k1 * _, -k.k2 / k.k1 * _ + _, _) = _
    refine Prod.ext ?_ (Prod.ext ?_ rfl) <;> simp only <;> ring

theorem shearKernel_mirror {L E0 : ℝ} (hL : 0 < L) (hE : 0 ≤ E0) (k : K3) (b : ℝ) (i j : Fin 3) :
    (shearKernel L E0 k.mirror (fin b) i j).toReal = -(Spec.side i * Spec.side j) * (shearKernel L E0 k (fin b) i j).toReal := by
  have e0 : kk0R k.mirror b = kk0R k b := by simp [kk0R, k30R, K3.mirror]
  rw [shearKernel_fin hL hE, shearKernel_fin hL hE, e0]
  have : kerR k.mirror b i j = -(Spec.side i * Spec.side j) * kerR k b i j := by
    have e30 : k30R k.mirror b = k30R k b := rfl
    unfold kerR
    simp only [zc_mirror, e30]
    fin_cases i <;> fin_cases j <;> simp [Spec.side, K3.mirror] <;> ring
  simp only [toReal_fin, this]
  ring

theorem nnBeta_mirror (net : TauNet) (G h : ℝ) (k : K3) : nnBeta net G h k.mirror = nnBeta net G h k := by
  unfold nnBeta
  have e : net.forward [k.mirror.k1 * h, k.mirror.k2 * h, k.mirror.k3 * h] = net.forward [k.k1 * h, k.k2 * h, k.k3 * h] :=
    C06_even net _ _ (by simp [K3.mirror, abs_mul])
  simp only [e]
  simp [K3.mirror]

/-- The spectral square root is a pseudo-tensor under the reflection. -/
theorem eval_mirror {K : GenKernel} (h : K.Valid) (k : K3) (i j : Fin 3) :
    times1j (K.eval k.mirror) i j = -(Spec.side i * Spec.side j : ℝ) * times1j (K.eval k) i j := by
  have hr : (K.eval k.mirror i j).toReal = -(Spec.side i * Spec.side j) * (K.eval k i j).toReal := by
    cases K with
    | vk L E0 =>
      have hkk : kkR k.mirror = kkR k := by simp [kkR, K3.mirror]
      have hc := kernelConst_fin h.1 h.2 (kkR_nonneg k)
      simp only [GenKernel.eval, vkKernel, kkR_pow, hkk, hc]
      fin_cases i <;> fin_cases j <;> simp [crossMat, K3.mirror, Spec.side]
    | mann hyp L E0 G =>
      have hb := mannBeta_eq G h.1 h.2.2 k
      have e : mannBeta hyp L G k.mirror = mannBeta hyp L G k := by
        unfold mannBeta; simp [K3.mirror]
      simp only [GenKernel.eval, mannKernel, e, hb]
      exact shearKernel_mirror h.1 h.2.1 k _ i j
    | nn net L E0 G hr =>
      obtain ⟨b, hb⟩ := nnBeta_fin h.2.2.1 G h.2.2.2 k
      simp only [GenKernel.eval, nnKernel, nnBeta_mirror, hb]
      exact shearKernel_mirror h.1 h.2.1 k _ i j
  unfold times1j
  simp only [hr]
  push_cast
  ring

section
variable {n1 n2 n3 : ℕ} [NeZero n1] [NeZero n2] [NeZero n3]

/-- Reflection of the second index. -/
def Box.mir (x : Box n1 n2 n3) : Box n1 n2 n3 := (x.1, -x.2.1, x.2.2)

theorem mir_mir (x : Box n1 n2 n3) : x.mir.mir = x := by simp [Box.mir]

/-- The reflection as a permutation of the box. -/
def mirEquiv : Box n1 n2 n3 ≃ Box n1 n2 n3 := ⟨Box.mir, Box.mir, mir_mir, mir_mir⟩

theorem wave_mir (k x : Box n1 n2 n3) : wave k.mir x = wave k x.mir := by simp [wave, Box.mir]

theorem fftn_mir (f : Box n1 n2 n3 → ℂ) (k : Box n1 n2 n3) : fftn (fun x => f x.mir) k = fftn f k.mir := by
  unfold fftn
  rw [← mirEquiv.sum_comp]
  refine Finset.sum_congr rfl fun x _ => ?_
  change f x.mir.mir * wave (-k) x.mir = _
  rw [mir_mir, ← wave_mir]
  rfl

theorem irfftn_mir (Y : Box n1 n2 n3 → ℂ) (x : Box n1 n2 n3) : irfftn (fun k => Y k.mir) x = irfftn Y x.mir := by
  unfold irfftn
  congr 1
  rw [← mirEquiv.sum_comp]
  refine Finset.sum_congr rfl fun k _ => ?_
  change (if k.2.2.val ≤ n3 / 2 then c2rWeight k * (Y k.mir.mir * wave k.mir x).re else 0) = _
  rw [mir_mir, wave_mir]

/-- The sampler of a spectral square root that is a pseudo-tensor under the reflection: reflecting the noise (with the
opposite sign) reflects the field. -/
theorem vfSample_mir {S : Box n1 n2 n3 → Matrix (Fin 3) (Fin 3) ℂ}
    (hS : ∀ k i l, S k.mir i l = -(Spec.side i * Spec.side l : ℝ) * S k i l) (norm : ℝ)
    (f : Box n1 n2 n3 → Fin 3 → ℝ) (x : Box n1 n2 n3) (i : Fin 3) :
    vfSample S norm (fun y l => -Spec.side l * f y.mir l) x i = Spec.side i * vfSample S norm f x.mir i := by
  rw [vfSample_eq, vfSample_eq, ← irfftn_mir]
  have hY : vfY S (fun y l => -Spec.side l * f y.mir l) i = fun k => ((Spec.side i : ℝ) : ℂ) * vfY S f i k.mir +
      ((0 : ℝ) : ℂ) * (0 : ℂ) := by
    funext k
    unfold vfY
    rw [Complex.ofReal_zero, zero_mul, add_zero, Finset.mul_sum]
    refine Finset.sum_congr rfl fun l _ => ?_
    have e1 : noiseHat (fun y l => -Spec.side l * f y.mir l) l k = -(Spec.side l : ℂ) * noiseHat f l k.mir := by
      unfold noiseHat
      rw [← fftn_mir]
      have := fftn_linear (-(Spec.side l : ℂ)) 0 (fun x : Box n1 n2 n3 => ((f x.mir l : ℝ) : ℂ)) (fun _ => 0) k
      simp only [zero_mul, add_zero] at this
      rw [← this]
      congr 1
      funext y
      push_cast
      rfl
    unfold spectrumHalf
    rw [e1, hS]
    have h1 : ((Spec.side i : ℝ) : ℂ) * Spec.side i = 1 := by exact_mod_cast side_sq i
    push_cast
    linear_combination (S k i l * (Real.sqrt (voxels n1 n2 n3) : ℂ) * (Spec.side l : ℂ) * noiseHat f l k.mir) * h1
  rw [hY, irfftn_linear, zero_mul, add_zero, mul_div_assoc]

theorem freqOf_mir (h2 : Odd n2) (L1 L2 L3 : ℝ) (k : Box n1 n2 n3) :
    freqOf L1 L2 L3 k.mir = (freqOf L1 L2 L3 k).mirror := by
  have h : 2 * k.2.1.val ≠ n2 := by
    intro e
    rw [← e] at h2
    exact (Nat.not_odd_iff_even.2 (even_two_mul _)) h2
  unfold freqOf K3.mirror Box.mir
  simp only [fftIdx_neg h]
  push_cast
  simp
end

/-! ### The generator -/

/-- The place in the random stream of the value at the laterally reflected grid point of the noise (same plane, height and
component). -/
def Gen.flip (g : Gen) (n : ℕ) : ℕ :=
  ((n / 3 / g.shape3.toNat / g.shape2.toNat * g.shape2.toNat +
    (g.shape2.toNat - 1 - n / 3 / g.shape3.toNat % g.shape2.toNat)) * g.shape3.toNat + n / 3 % g.shape3.toNat) * 3 + n % 3

theorem digits_div {n a b : ℕ} (hb : b < n) : (a * n + b) / n = a ∧ (a * n + b) % n = b := by
  have hn : 0 < n := by omega
  constructor
  · rw [mul_comm, Nat.mul_add_div hn, Nat.div_eq_of_lt hb, add_zero]
  · rw [Nat.mul_add_mod_of_lt hb]

theorem flip_digits {g : Gen} {r b c i : ℕ} (hb : b < g.shape2.toNat) (hc : c < g.shape3.toNat) (hi : i < 3) :
    g.flip (((r * g.shape2.toNat + b) * g.shape3.toNat + c) * 3 + i) =
      ((r * g.shape2.toNat + (g.shape2.toNat - 1 - b)) * g.shape3.toNat + c) * 3 + i := by
  unfold Gen.flip
  rw [(digits_div hi).1, (digits_div hi).2, (digits_div hc).1, (digits_div hc).2, (digits_div hb).1, (digits_div hb).2]

theorem flip_flip {g : Gen} (hg : g.Good) (n : ℕ) : g.flip (g.flip n) = n := by
  obtain ⟨-, -, -, p1, p2, p3, -⟩ := hg.shapes
  have h2 := Nat.mod_lt (n / 3 / g.shape3.toNat) p2
  have h3 := Nat.mod_lt (n / 3) p3
  conv_lhs => arg 2; unfold Gen.flip
  rw [flip_digits (by omega) h3 (Nat.mod_lt _ (by norm_num))]
  have e : g.shape2.toNat - 1 - (g.shape2.toNat - 1 - n / 3 / g.shape3.toNat % g.shape2.toNat) =
    n / 3 / g.shape3.toNat % g.shape2.toNat := by omega
  rw [e, Nat.div_add_mod', Nat.div_add_mod', Nat.div_add_mod']

/-- The stream of the laterally reflected noise. -/
def Gen.flipStream (g : Gen) (γ : ℕ → ℝ) (n : ℕ) : ℝ := -Spec.side (Fin.ofNat 3 n) * γ (g.flip n)

section
variable {g : Gen}

theorem Gen.odd_shape2 (hg : g.Good) (hl : 0 < g.l2) : Odd g.shape2.toNat := by
  obtain ⟨-, e2, -⟩ := hg.shapes
  have h : Odd (g.Ny : ℤ) := by
    unfold Gen.Ny
    push_cast
    refine Even.add_one (Even.pow_of_ne_zero even_two ?_)
    omega
  have : Odd ((g.shape2.toNat : ℕ) : ℤ) := by
    rw [e2]
    exact h.add_even (even_two_mul _)
  exact_mod_cast this

/-- Reflecting the noise reflects the blocks, with the sign of the lateral component changed. -/
theorem raw_mirror (hg : g.Good) (hl : 0 < g.l2) (hK : g.kernel.Valid) (γ : ℕ → ℝ) (j : ℕ) (r : Fin g.Nx) (b : Fin g.Ny)
    (c : Fin g.Nz) (k : Fin 3) :
    g.raw (g.flipStream γ) j (r, b, c, k) = Spec.side k * g.raw γ j (r, b.rev, c, k) := by
  obtain ⟨e1, e2, e3, p1, p2, p3, q1, q2, q3⟩ := hg.shapes
  have : NeZero g.shape1.toNat := ⟨p1.ne'⟩
  have : NeZero g.shape2.toNat := ⟨p2.ne'⟩
  have : NeZero g.shape3.toNat := ⟨p3.ne'⟩
  have hodd := Gen.odd_shape2 hg hl
  rw [raw_periodic hg, raw_periodic hg]
  unfold Gen.periodic
  set f : Box g.shape1.toNat g.shape2.toNat g.shape3.toNat → Fin 3 → ℝ := fun y l =>
    γ ((((j * g.Nx + y.1.val) * g.shape2.toNat + y.2.1.val) * g.shape3.toNat + y.2.2.val) * 3 + l.val) * g.rf.noiseStd with hf
  set d : Box g.shape1.toNat g.shape2.toNat g.shape3.toNat := (0, -1, 0) with hd
  have hnoise : (fun (y : Box g.shape1.toNat g.shape2.toNat g.shape3.toNat) (l : Fin 3) => g.flipStream γ
      ((((j * g.Nx + y.1.val) * g.shape2.toNat + y.2.1.val) * g.shape3.toNat + y.2.2.val) * 3 + l.val) * g.rf.noiseStd) =
      fun y l => -Spec.side l * (fun z => f (z + d)) y.mir l := by
    funext y l
    have hval : (-y.2.1 + -1 : ZMod g.shape2.toNat).val = g.shape2.toNat - 1 - y.2.1.val := by
      have hlt := ZMod.val_lt y.2.1
      have : (-y.2.1 + -1 : ZMod g.shape2.toNat) = ((g.shape2.toNat - 1 - y.2.1.val : ℕ) : ZMod g.shape2.toNat) := by
        rw [Nat.cast_sub (by omega), Nat.cast_sub (by omega), ZMod.natCast_self, ZMod.natCast_zmod_val]
        push_cast
        ring
      rw [this, ZMod.val_natCast, Nat.mod_eq_of_lt (by omega)]
    have hfin : Fin.ofNat 3 ((((j * g.Nx + y.1.val) * g.shape2.toNat + y.2.1.val) * g.shape3.toNat + y.2.2.val) * 3 + l.val) = l := by
      apply Fin.ext
      simp only [Fin.ofNat]
      exact (digits_div l.isLt).2
    unfold Gen.flipStream
    rw [hfin, flip_digits (ZMod.val_lt _) (ZMod.val_lt _) l.isLt]
    simp only [hf, hd, Box.mir, Prod.fst_add, Prod.snd_add, add_zero, hval]
    ring
  rw [hnoise, vfSample_mir _ _ (fun z => f (z + d)), C61_shift]
  · congr 2
    simp only [hd, Box.mir, Prod.mk_add_mk, add_zero, Prod.mk.injEq, true_and, and_true]
    have hb := b.isLt
    have hg1 := hg.2.1
    have : g.my.toNat + b.rev.val = g.shape2.toNat - 1 - (g.my.toNat + b.val) := by
      rw [Fin.val_rev]; omega
    rw [this, Nat.cast_sub (by omega), Nat.cast_sub (by omega), ZMod.natCast_self]
    push_cast
    ring
  · intro k i l
    unfold Gen.root spectrumOf
    rw [freqOf_mir hodd, eval_mirror hK]

/-- The laterally reflected cell. -/
def Gen.across (x : g.Cell) : g.Cell := (x.1, x.2.1.rev, x.2.2.1, x.2.2.2)

theorem across_across (x : g.Cell) : Gen.across (Gen.across x) = x := by simp [Gen.across]

theorem fluct_mirror (hg : g.Good) (hl : 0 < g.l2) (hK : g.kernel.Valid) (γ : ℕ → ℝ) (j : ℕ) (x : g.Cell) :
    g.fluct (g.flipStream γ) j x = Spec.side x.2.2.2 * g.fluct γ j (Gen.across x) := by
  obtain ⟨r, b, c, k⟩ := x
  have hsum : ∑ x : g.Cell, g.raw (g.flipStream γ) j x ^ 2 = ∑ x : g.Cell, g.raw γ j x ^ 2 := by
    rw [← (⟨Gen.across, Gen.across, across_across, across_across⟩ : g.Cell ≃ g.Cell).sum_comp fun x => g.raw γ j x ^ 2]
    refine Finset.sum_congr rfl fun x _ => ?_
    obtain ⟨r, b, c, k⟩ := x
    rw [raw_mirror hg hl hK, mul_pow, pow_two (Spec.side k), side_sq, one_mul]
    rfl
  unfold Gen.fluct
  rw [sd_cells, sd_cells, hsum, raw_mirror hg hl hK, mul_div_assoc]
  rfl

variable {Ω : Type} [MeasurableSpace Ω] {μ : Measure Ω} [IsProbabilityMeasure μ] {ξ : ℕ → Ω → ℝ} {ν : Measure ℝ}

theorem Spec.Stream.flip (hg : g.Good) (h : Spec.Stream μ ξ ν) (hs : ν.map (fun x => -x) = ν) :
    Spec.Stream μ (fun n ω => g.flipStream (fun n => ξ n ω) n) ν := by
  have hm : ∀ c : ℝ, Measurable fun x : ℝ => c * x := fun c => measurable_const_mul c
  have hinv : Function.Injective g.flip := Function.Involutive.injective (flip_flip hg)
  refine ⟨fun n => (h.1 _).const_mul _, (h.2.1.precomp hinv).comp (fun n x => -Spec.side (Fin.ofNat 3 n) * x) fun n => hm _,
    fun n => ?_⟩
  have e : μ.map (fun ω => g.flipStream (fun n => ξ n ω) n) = ν.map fun x => -Spec.side (Fin.ofNat 3 n) * x := by
    rw [← h.2.2 (g.flip n), Measure.map_map (hm _) (h.1 _)]
    rfl
  rw [e]
  rcases side_abs (Fin.ofNat 3 n) with h1 | h1
  · simp only [h1, neg_one_mul, hs]
  · simp only [h1, neg_neg, one_mul]
    exact Measure.map_id

/-- The law of the blocks is invariant under the lateral reflection. -/
theorem fluct_mirror_law (hg : g.Good) (hl : 0 < g.l2) (hK : g.kernel.Valid) (h : Spec.Stream μ ξ ν)
    (hs : ν.map (fun x => -x) = ν) :
    IdentDistrib (fun ω m => g.fluct (fun n => ξ n ω) m)
      (fun ω m (x : g.Cell) => Spec.side x.2.2.2 * g.fluct (fun n => ξ n ω) m (Gen.across x)) μ μ := by
  have := (h.identDistrib (h.flip hg hs)).comp (fluct_seq_measurable hg)
  have e : (fun ω m (x : g.Cell) => Spec.side x.2.2.2 * g.fluct (fun n => ξ n ω) m (Gen.across x)) =
      (fun γ m => g.fluct γ m) ∘ fun ω n => g.flipStream (fun n => ξ n ω) n := by
    funext ω m x
    exact (fluct_mirror hg hl hK _ m x).symm
  rw [e]
  exact this

/-! ### C116 -/

/-- Component `k` at a point of the field returned by a call after other calls, on an object created with a given random
stream (0 if there is none). -/
def Spec.session (env : GenEnv) (a : GenArgs) (cs : List (ℕ × ProfileArgs)) (p : ProfileArgs) (n : ℕ) (γ : ℕ → ℝ)
    (x y z : ℕ) (k : Fin 3) : ℝ :=
  match (genInit (env.withStream γ) a).1 with
  | .ok g => Spec.readOut ((g.run cs).2.generate p n).1 x y z k
  | .error _ => 0

theorem session_fluct (h : Spec.Stream μ ξ ν) (hat : ∀ x, ν {x} = 0) {env : GenEnv} {a : GenArgs} (hp : a.PosScales)
    (he : a.PosEnergy) (hlow : a.low = none) {q : ℕ} (hinit : genInit env a = (.ok g, q)) (hK : g.kernel.Valid) :
    ∀ᵐ ω ∂μ, ∀ cs : List (ℕ × ProfileArgs), (∀ c ∈ cs, c.2.Valid) → ∀ (p : ProfileArgs) (n : ℕ), p.Valid →
      ∀ i < n, ∀ x : g.Cell, Spec.session env a cs p n (fun n => ξ n ω)
          (((cs.map Prod.fst).sum + i) * g.Nx + x.1) x.2.1 x.2.2.1 x.2.2.2 =
        if x.2.2.2 = 0 then (fin (g.fluct (fun n => ξ n ω) ((cs.map Prod.fst).sum + i) x) +
            Spec.meanWind p ((x.2.2.1 : ℕ) * (a.d3 / 2 ^ a.l3))).toReal
          else g.fluct (fun n => ξ n ω) ((cs.map Prod.fst).sum + i) x := by
  filter_upwards [fluct_returned h hat hp he hlow hinit hK] with ω hω
  obtain ⟨g', hg', hcalls⟩ := hω
  intro cs hcs p n hv i hi x
  obtain ⟨f, hf, -, hval⟩ := hcalls cs hcs p n hv
  obtain ⟨r, b, c, k⟩ := x
  obtain ⟨w, hw, w0, w1, w2⟩ := hval i hi r b c
  unfold Spec.session Spec.readOut
  rw [hg']
  simp only
  rw [hf]
  simp only
  rw [hw]
  simp only [Option.map_some, Option.getD_some]
  fin_cases k
  · change (w 0).toReal = _
    rw [w0]; rfl
  · change (w 1).toReal = _
    rw [w1]; simp
  · change (w 2).toReal = _
    rw [w2]; simp

theorem measurable_fin_add (m : Fl) : Measurable fun v : ℝ => (fin v + m).toReal := by
  cases m with
  | fin y =>
    simp only [fin_add_fin, toReal_fin]
    exact measurable_id.add_const y
  | nan => exact (measurable_const : Measurable fun _ : ℝ => (nan : Fl).toReal)
  | pinf => exact (measurable_const : Measurable fun _ : ℝ => (pinf : Fl).toReal)
  | ninf => exact (measurable_const : Measurable fun _ : ℝ => (ninf : Fl).toReal)

/-- **C116.**  The second axis has no preferred direction.  For any of the covariances, without a low-frequency part, with
more than one cell across and with a random stream of independent values of a common symmetric law without atoms: the field
returned by any valid call after any valid calls has the same law as its mirror image, in which the grid points are reflected
across and the sign of the lateral component is changed. -/
theorem C116_mirror_law (h : Spec.Stream μ ξ ν) (hat : ∀ x, ν {x} = 0) (hsym : ν.map (fun x => -x) = ν) {env : GenEnv}
    {a : GenArgs} (hp : a.PosScales) (he : a.PosEnergy) (hlow : a.low = none) (hl : 0 < a.l2) {q : ℕ}
    (hinit : genInit env a = (.ok g, q)) (hK : g.kernel.Valid) {cs : List (ℕ × ProfileArgs)} (hcs : ∀ c ∈ cs, c.2.Valid)
    {p : ProfileArgs} (hv : p.Valid) (n : ℕ) :
    IdentDistrib
      (fun ω (w : Fin n × Fin g.Nx × Fin g.Ny × Fin g.Nz × Fin 3) => Spec.session env a cs p n (fun n => ξ n ω)
        (((cs.map Prod.fst).sum + w.1) * g.Nx + w.2.1) w.2.2.1 w.2.2.2.1 w.2.2.2.2)
      (fun ω (w : Fin n × Fin g.Nx × Fin g.Ny × Fin g.Nz × Fin 3) => (if w.2.2.2.2 = 1 then -1 else 1) *
        Spec.session env a cs p n (fun n => ξ n ω)
          (((cs.map Prod.fst).sum + w.1) * g.Nx + w.2.1) (g.Ny - 1 - w.2.2.1) w.2.2.2.1 w.2.2.2.2) μ μ := by
  have hg := genInit_good hp hinit
  obtain ⟨K, L, T, hs, hf, hl', -, ⟨-, l2, -⟩, -⟩ := genInit_ok hinit
  have hl2 : 0 < g.l2 := by rw [l2]; exact hl
  let G : (ℕ → g.Cell → ℝ) → (Fin n × g.Cell) → ℝ := fun V w =>
    if w.2.2.2.2 = 0 then (fin (V ((cs.map Prod.fst).sum + w.1) w.2) + Spec.meanWind p ((w.2.2.2.1 : ℕ) * (a.d3 / 2 ^ a.l3))).toReal
      else V ((cs.map Prod.fst).sum + w.1) w.2
  have hGm : Measurable G := by
    refine measurable_pi_lambda _ fun w => ?_
    have h0 : Measurable fun V : ℕ → g.Cell → ℝ => V ((cs.map Prod.fst).sum + w.1) w.2 :=
      (measurable_pi_apply w.2).comp (measurable_pi_apply _)
    simp only [G]
    by_cases hk : w.2.2.2.2 = 0
    · simp only [hk, if_true]
      exact (measurable_fin_add _).comp h0
    · simp only [hk, if_false]
      exact h0
  have key := (fluct_mirror_law hg hl2 hK h hsym).comp hGm
  have hae := session_fluct h hat hp he hlow hinit hK
  have e1 : (G ∘ fun ω m => g.fluct (fun n => ξ n ω) m) =ᵐ[μ]
      fun ω (w : Fin n × Fin g.Nx × Fin g.Ny × Fin g.Nz × Fin 3) => Spec.session env a cs p n (fun n => ξ n ω)
        (((cs.map Prod.fst).sum + w.1) * g.Nx + w.2.1) w.2.2.1 w.2.2.2.1 w.2.2.2.2 := by
    filter_upwards [hae] with ω hω
    funext w
    exact (hω cs hcs p n hv w.1 w.1.isLt w.2).symm
  have e2 : (G ∘ fun ω m (x : g.Cell) => Spec.side x.2.2.2 * g.fluct (fun n => ξ n ω) m (Gen.across x)) =ᵐ[μ]
      fun ω (w : Fin n × Fin g.Nx × Fin g.Ny × Fin g.Nz × Fin 3) => (if w.2.2.2.2 = 1 then -1 else 1) *
        Spec.session env a cs p n (fun n => ξ n ω)
          (((cs.map Prod.fst).sum + w.1) * g.Nx + w.2.1) (g.Ny - 1 - w.2.2.1) w.2.2.2.1 w.2.2.2.2 := by
    filter_upwards [hae] with ω hω
    funext w
    obtain ⟨i, r, b, c, k⟩ := w
    have := hω cs hcs p n hv i i.isLt (r, b.rev, c, k)
    simp only at this
    have hb : (b.rev : ℕ) = g.Ny - 1 - b := by rw [Fin.val_rev]; omega
    rw [hb] at this
    simp only [G, Function.comp, Gen.across]
    rw [this]
    fin_cases k <;> simp [Spec.side]
  exact ((IdentDistrib.of_ae_eq key.aemeasurable_fst e1).symm.trans key).trans (IdentDistrib.of_ae_eq key.aemeasurable_snd e2)

/-- Deviation from the mean wind of component `k` at a point of block `i` of the field returned by the first call. -/
def Spec.deviation (env : GenEnv) (a : GenArgs) (p : ProfileArgs) (Nx n : ℕ) (γ : ℕ → ℝ) (i r b c : ℕ) (k : Fin 3) : ℝ :=
  Spec.session env a [] p n γ (i * Nx + r) b c k - if k = 0 then (Spec.meanWind p (c * (a.d3 / 2 ^ a.l3))).toReal else 0

theorem meanWind_fin {a : GenArgs} (hp : a.PosScales) {p : ProfileArgs} (hv : p.Valid)
    (hlog : p.ptype = "LOG" → p.z0 ≠ p.zref) (hpl : ∀ e, p.plexp = some e → 0 ≤ e) (c : ℕ) :
    ∃ v, Spec.meanWind p (c * (a.d3 / 2 ^ a.l3)) = fin v := by
  have hz : (0 : ℝ) ≤ c * (a.d3 / 2 ^ a.l3) := by
    have := hp.1.2.2
    positivity
  obtain ⟨hty, z1, -, z2⟩ := hv
  unfold Spec.meanWind
  by_cases ht : p.ptype = "LOG"
  · rw [if_pos ht]
    exact ⟨_, logLaw_fin hz z2 z1 (hlog ht).symm⟩
  · rw [if_neg ht]
    obtain ⟨-, e, hpe⟩ := hty.resolve_left ht
    rw [hpe]
    exact ⟨_, powerLaw_fin hz z1 (hpl e hpe)⟩

theorem deviation_fluct (h : Spec.Stream μ ξ ν) (hat : ∀ x, ν {x} = 0) {env : GenEnv} {a : GenArgs} (hp : a.PosScales)
    (he : a.PosEnergy) (hlow : a.low = none) {q : ℕ} (hinit : genInit env a = (.ok g, q)) (hK : g.kernel.Valid)
    {p : ProfileArgs} (hv : p.Valid) (hlog : p.ptype = "LOG" → p.z0 ≠ p.zref) (hpl : ∀ e, p.plexp = some e → 0 ≤ e) :
    ∀ᵐ ω ∂μ, ∀ (n i : ℕ), i < n → ∀ (r : Fin g.Nx) (b : Fin g.Ny) (c : Fin g.Nz) (k : Fin 3),
      Spec.deviation env a p g.Nx n (fun n => ξ n ω) i r b c k = g.fluct (fun n => ξ n ω) i (r, b, c, k) := by
  filter_upwards [session_fluct h hat hp he hlow hinit hK] with ω hω1
  intro n i hi r b c k
  have := hω1 [] (fun c hc => by cases hc) p n hv i hi (r, b, c, k)
  simp only [List.map_nil, List.sum_nil, zero_add] at this
  obtain ⟨v, hvv⟩ := meanWind_fin hp hv hlog hpl c
  unfold Spec.deviation
  rw [this, hvv]
  by_cases hk : k = 0
  · simp [hk]
  · simp [hk]

theorem cells_measurable (x y : g.Cell) : Measurable fun v : g.Cell → ℝ => v x * v y :=
  (measurable_pi_apply x).mul (measurable_pi_apply y)

theorem fluct_products (hg : g.Good) (h : Spec.Stream μ ξ ν) :
    ∀ᵐ ω ∂μ, ∀ x y : g.Cell, Tendsto (fun n : ℕ => (∑ j ∈ Finset.range n, g.fluct (fun n => ξ n ω) j x *
      g.fluct (fun n => ξ n ω) j y) / n) atTop (𝓝 (∫ ω, g.fluct (fun n => ξ n ω) 0 x * g.fluct (fun n => ξ n ω) 0 y ∂μ)) := by
  have hint : ∀ x y : g.Cell, Integrable (fun ω => g.fluct (fun n => ξ n ω) 0 x * g.fluct (fun n => ξ n ω) 0 y) μ := by
    intro x y
    refine Integrable.of_bound ((cells_measurable x y).comp (fluct_measurable_stream hg h.1 0)).aestronglyMeasurable
      (Real.sqrt (g.Nx * g.Ny * g.Nz * 3 : ℕ) * Real.sqrt (g.Nx * g.Ny * g.Nz * 3 : ℕ)) (Eventually.of_forall fun ω => ?_)
    rw [Real.norm_eq_abs, abs_mul]
    exact mul_le_mul (fluct_abs_le g _ 0 x) (fluct_abs_le g _ 0 y) (abs_nonneg _) (Real.sqrt_nonneg _)
  refine ae_all_iff.2 fun x => ae_all_iff.2 fun y => ?_
  have := fluct_average (F := fun v : g.Cell → ℝ => v x * v y) hg h (cells_measurable x y) (hint x y)
  exact this

theorem fluct_mirror_products (hg : g.Good) (hl : 0 < g.l2) (hK : g.kernel.Valid) (h : Spec.Stream μ ξ ν)
    (hs : ν.map (fun x => -x) = ν) (x y : g.Cell) :
    ∫ ω, g.fluct (fun n => ξ n ω) 0 (Gen.across x) * g.fluct (fun n => ξ n ω) 0 (Gen.across y) ∂μ =
      Spec.side x.2.2.2 * Spec.side y.2.2.2 * ∫ ω, g.fluct (fun n => ξ n ω) 0 x * g.fluct (fun n => ξ n ω) 0 y ∂μ := by
  have := ((fluct_mirror_law hg hl hK h hs).comp
    ((cells_measurable (Gen.across x) (Gen.across y)).comp (measurable_pi_apply 0))).integral_eq
  simp only [Function.comp_def, across_across] at this
  rw [this, ← integral_const_mul]
  refine integral_congr_ae (Eventually.of_forall fun ω => ?_)
  simp only [Gen.across]
  ring

/-- **C116.**  Long-run statistics of the returned field are mirror symmetric: with probability one, for any two points (and
components) of a block, the average over the blocks of the product of the deviations from the mean wind tends to a limit, and
the one at the mirrored points tends to the same limit, up to the sign given by the lateral components. -/
theorem C116_second_moments (h : Spec.Stream μ ξ ν) (hat : ∀ x, ν {x} = 0) (hsym : ν.map (fun x => -x) = ν) {env : GenEnv}
    {a : GenArgs} (hp : a.PosScales) (he : a.PosEnergy) (hlow : a.low = none) (hl : 0 < a.l2) {q : ℕ}
    (hinit : genInit env a = (.ok g, q)) (hK : g.kernel.Valid) {p : ProfileArgs} (hv : p.Valid)
    (hlog : p.ptype = "LOG" → p.z0 ≠ p.zref) (hpl : ∀ e, p.plexp = some e → 0 ≤ e) :
    ∀ᵐ ω ∂μ, ∀ (r r' : Fin g.Nx) (b b' : Fin g.Ny) (c c' : Fin g.Nz) (k k' : Fin 3), ∃ ℓ : ℝ,
      Tendsto (fun n : ℕ => (∑ i ∈ Finset.range n, Spec.deviation env a p g.Nx n (fun n => ξ n ω) i r b c k *
        Spec.deviation env a p g.Nx n (fun n => ξ n ω) i r' b' c' k') / n) atTop (𝓝 ℓ) ∧
      Tendsto (fun n : ℕ => (∑ i ∈ Finset.range n, Spec.deviation env a p g.Nx n (fun n => ξ n ω) i r (g.Ny - 1 - b) c k *
        Spec.deviation env a p g.Nx n (fun n => ξ n ω) i r' (g.Ny - 1 - b') c' k') / n) atTop
        (𝓝 ((if k = 1 then -1 else 1) * (if k' = 1 then -1 else 1) * ℓ)) := by
  have hg := genInit_good hp hinit
  obtain ⟨K, L, T, hs, hf, hl', -, ⟨-, l2, -⟩, -⟩ := genInit_ok hinit
  have hl2 : 0 < g.l2 := by rw [l2]; exact hl
  filter_upwards [deviation_fluct h hat hp he hlow hinit hK hv hlog hpl, fluct_products hg h] with ω hω1 hω2
  intro r r' b b' c c' k k'
  have hrev : ∀ b : Fin g.Ny, g.Ny - 1 - (b : ℕ) = (b.rev : ℕ) := fun b => by rw [Fin.val_rev]; omega
  refine ⟨∫ ω, g.fluct (fun n => ξ n ω) 0 (r, b, c, k) * g.fluct (fun n => ξ n ω) 0 (r', b', c', k') ∂μ, ?_, ?_⟩
  · refine (hω2 (r, b, c, k) (r', b', c', k')).congr fun n => ?_
    congr 1
    refine Finset.sum_congr rfl fun i hi => ?_
    rw [hω1 n i (Finset.mem_range.1 hi), hω1 n i (Finset.mem_range.1 hi)]
  · have hlim := hω2 (Gen.across (r, b, c, k)) (Gen.across (r', b', c', k'))
    rw [fluct_mirror_products hg hl2 hK h hsym] at hlim
    refine hlim.congr fun n => ?_
    congr 1
    refine Finset.sum_congr rfl fun i hi => ?_
    rw [hrev, hrev, hω1 n i (Finset.mem_range.1 hi), hω1 n i (Finset.mem_range.1 hi)]
    simp only [Gen.across]

/-- **C116.**  In the vertical plane in the middle of the domain the lateral component is uncorrelated with the other two: with
probability one, the average over the blocks of the product of its fluctuation and that of another component, at any two points
of the plane, tends to zero. -/
theorem C116_no_lateral_flux (h : Spec.Stream μ ξ ν) (hat : ∀ x, ν {x} = 0) (hsym : ν.map (fun x => -x) = ν) {env : GenEnv}
    {a : GenArgs} (hp : a.PosScales) (he : a.PosEnergy) (hlow : a.low = none) (hl : 0 < a.l2) {q : ℕ}
    (hinit : genInit env a = (.ok g, q)) (hK : g.kernel.Valid) {p : ProfileArgs} (hv : p.Valid)
    (hlog : p.ptype = "LOG" → p.z0 ≠ p.zref) (hpl : ∀ e, p.plexp = some e → 0 ≤ e) :
    ∀ᵐ ω ∂μ, ∀ (r r' : Fin g.Nx) (c c' : Fin g.Nz) (k : Fin 3), k ≠ 1 →
      Tendsto (fun n : ℕ => (∑ i ∈ Finset.range n,
        Spec.deviation env a p g.Nx n (fun n => ξ n ω) i r (2 ^ (a.l2 - 1)) c k *
        Spec.deviation env a p g.Nx n (fun n => ξ n ω) i r' (2 ^ (a.l2 - 1)) c' 1) / n) atTop (𝓝 0) := by
  obtain ⟨K, L, T, hs, hf, hl', -, ⟨-, l2, -⟩, -⟩ := genInit_ok hinit
  have h2 : 2 ^ (a.l2 - 1) + 2 ^ (a.l2 - 1) = 2 ^ a.l2 := by
    rw [← two_mul, ← pow_succ', Nat.sub_add_cancel hl]
  have hNy : g.Ny = 2 ^ a.l2 + 1 := by unfold Gen.Ny; rw [l2]
  have hm : 2 ^ (a.l2 - 1) < g.Ny := by omega
  filter_upwards [C116_second_moments h hat hsym hp he hlow hl hinit hK hv hlog hpl] with ω hω
  intro r r' c c' k hk
  obtain ⟨ℓ, h1, h2'⟩ := hω r r' ⟨_, hm⟩ ⟨_, hm⟩ c c' k 1
  have hmid : g.Ny - 1 - 2 ^ (a.l2 - 1) = 2 ^ (a.l2 - 1) := by omega
  simp only [hmid, if_neg hk, if_true] at h2'
  have hz := tendsto_nhds_unique h1 h2'
  have hℓ : ℓ = 0 := by linarith
  rw [hℓ] at h1
  exact h1
end

/-- Arguments meeting the hypotheses (with the stream and the profile of the case beside `C97_mean_wind`). -/
example (env : GenEnv) : exampleArgs.PosScales ∧ exampleArgs.PosEnergy ∧ exampleArgs.low = none ∧ 0 < exampleArgs.l2 ∧
    ∃ g, genInit env exampleArgs = (.ok g, env.globPos) ∧ g.kernel.Valid := by
  obtain ⟨h1, h2, h3, -⟩ := exampleArgs_physical env
  exact ⟨h1, h2, rfl, by decide, h3⟩
end
end Verif
