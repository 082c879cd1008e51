import Verif.Props.FieldSpectrum
import Verif.Props.ParamVector
import Verif.Props.Generator

/-!
# C100: the spectrum of a generator built from a saved fit
-/

namespace Verif
open Fl Verif.Spec

noncomputable section

/-! ### Dimensional analysis of the textbook tensor -/

theorem rdt3_scale {z : ℝ} (hz : z ≠ 0) (k1 k2 K b : ℝ) : rdt3 (z * k1) (z * k2) (z * K) b = rdt3 k1 k2 K b := by
  have e : ∀ t, shearSq (z * k1) (z * k2) (z * K) t = z ^ 2 * shearSq k1 k2 K t := fun t => by unfold shearSq; ring
  unfold rdt3
  rw [e, e, mul_div_mul_left _ _ (pow_ne_zero 2 hz)]

theorem distortion_scale {z : ℝ} (hz : z ≠ 0) (k : Fin 3 → ℝ) (b : ℝ) : distortion (fun i => z * k i) b = distortion k b := by
  have e : ∀ k1 k2 K t, shearSq (z * k1) (z * k2) (z * K) t = z ^ 2 * shearSq k1 k2 K t := fun _ _ _ t => by
    unfold shearSq; ring
  have e1 : ∀ k1 k2 K, rdt1 (z * k1) (z * k2) (z * K) b = rdt1 k1 k2 K b := fun k1 k2 K => by
    unfold rdt1
    congr 1
    funext t
    rw [rdt3_scale hz, e, show 2 * (z * k1) ^ 2 = z ^ 2 * (2 * k1 ^ 2) by ring, mul_div_mul_left _ _ (pow_ne_zero 2 hz)]
  have e2 : ∀ k1 k2 K, rdt2 (z * k1) (z * k2) (z * K) b = rdt2 k1 k2 K b := fun k1 k2 K => by
    unfold rdt2
    congr 1
    funext t
    rw [rdt3_scale hz, e, show 2 * (z * k1) * (z * k2) = z ^ 2 * (2 * k1 * k2) by ring,
      mul_div_mul_left _ _ (pow_ne_zero 2 hz)]
  unfold distortion
  simp only
  rw [show z * k 2 + b * (z * k 0) = z * (k 2 + b * k 0) by ring, e1, e2, rdt3_scale hz]

theorem isoTensor_scale {z : ℝ} (hz : 0 < z) {E E' : ℝ → ℝ} {c : ℝ} (hE : ∀ κ, 0 ≤ κ → E' κ = c * E (z * κ)) (k : Fin 3 → ℝ)
    (i j : Fin 3) : isoTensor E' k i j = c * z ^ 2 * isoTensor E (fun i => z * k i) i j := by
  have es : sq3 (fun i => z * k i) = z ^ 2 * sq3 k := by unfold sq3; simp only; ring
  have hz2 : z ^ 2 ≠ 0 := pow_ne_zero 2 hz.ne'
  unfold isoTensor
  rw [es, Real.sqrt_mul (sq_nonneg z), Real.sqrt_sq hz.le, hE _ (Real.sqrt_nonneg _),
    show z * k i * (z * k j) = z ^ 2 * (k i * k j) by ring, mul_div_mul_left _ _ hz2,
    show 4 * Real.pi * (z ^ 2 * sq3 k) = z ^ 2 * (4 * Real.pi * sq3 k) by ring, mul_div_assoc, ← mul_assoc, ← mul_assoc]
  congr 1
  by_cases h0 : 4 * Real.pi * sq3 k = 0
  · have h1 : sq3 k = 0 := by
      have := Real.pi_ne_zero
      simpa [this] using h0
    simp [h1]
  · field_simp

theorem shearedTensor_scale {z : ℝ} (hz : 0 < z) {E E' : ℝ → ℝ} {c : ℝ} (hE : ∀ κ, 0 ≤ κ → E' κ = c * E (z * κ))
    (k : Fin 3 → ℝ) (b : ℝ) :
    shearedTensor E' k b = (c * z ^ 2) • shearedTensor E (fun i => z * k i) b := by
  have hP : isoTensor E' (initialWave k b) = (c * z ^ 2) • isoTensor E (initialWave (fun i => z * k i) b) := by
    have hi : initialWave (fun i => z * k i) b = fun i => z * initialWave k b i := by
      funext i
      fin_cases i <;> simp [initialWave]
      ring
    ext i j
    rw [hi, isoTensor_scale hz hE]
    rfl
  unfold shearedTensor
  rw [hP, distortion_scale hz.ne']
  simp [Matrix.mul_smul, Matrix.smul_mul]

/-! ### What is taken over from the file -/

/-- Amplitude factor between the generator and the dimensional fit for a trained length scale `l`. -/
def Spec.amplitude (l : ℝ) : ℝ := 4 * Real.pi * l ^ (-5 / 3 : ℝ)

theorem vkE_scale {z l M u : ℝ} (hz : 0 < z) {κ : ℝ} (hκ : 0 ≤ κ) :
    vkE (l * z) (4 * Real.pi * l ^ (-5 / 3 : ℝ) * M * u ^ 2 * z ^ (-2 / 3 : ℝ)) κ =
      Spec.amplitude l * (u ^ 2 * z) * vkE l M (z * κ) := by
  unfold vkE Spec.amplitude
  rw [Real.mul_rpow hz.le hκ, show κ * (l * z) = z * κ * l by ring]
  have e : z ^ (-2 / 3 : ℝ) = z * z ^ (-5 / 3 : ℝ) := by
    rw [← Real.rpow_one_add' hz.le (by norm_num)]
    norm_num
  rw [e]
  ring

theorem genScales_drd {env : GenEnv} {a : GenArgs} (hm : a.model = "DRD") {f : String} (hf : a.path = some f) {ops : OPS}
    (hl : loadModel env.hyp env.netSeed env.netNoise f env.fs = .ok ops) {net : TauNet} (hk : ops.kind = .taunet net)
    (hz : a.zref ≠ 0) :
    genScales env a = .ok (.nn net (Real.exp ops.logL * a.zref)
      (4 * Real.pi * Real.exp ops.logL ^ (-5 / 3 : ℝ) * Real.exp ops.logM * a.ustar ^ 2 * a.zref ^ (-2 / 3 : ℝ))
      (Real.exp ops.logT) a.zref, Real.exp ops.logL * a.zref, Real.exp ops.logT) := by
  unfold genScales
  rw [if_neg (by simp [hm]), if_pos hm, hf]
  simp only [hl, heightPower, if_neg hz, hk, OPS.expScalesValue]

section takeover
variable {hyp : ℝ → ℝ} {deviceOk : Bool} {nn : NNCfg} {prob : ProbCfg} {phys : PhysCfg} {integ : IntegCfg} {seed : NetSeed}
  {noise : List ℝ} {s0 : OPS}

theorem saved_scales (hs : seed.WellShaped)
    (h0 : calibInit hyp deviceOk (some nn) prob phys integ seed noise = .ok s0)
    (ops : List SessionOp) (hops : ∀ o ∈ ops, o.Legal prob.learnNu (s0.paramVec prob.learnNu).length)
    (loss : LossParams) (saveDir outDir : Option DirArg) (fs fs' : FS) (f : String)
    (hsave : saveModel saveDir outDir
      ⟨nn, prob, loss, phys, (ops.foldl (fun s o => o.run prob.learnNu s) s0).paramVec prob.learnNu⟩ fs = (.ok f, fs'))
    {net : TauNet} (hnet : (ops.foldl (fun s o => o.run prob.learnNu s) s0).kind = .taunet net)
    {env : GenEnv} (hfs : env.fs = fs') (hh : env.hyp = hyp) (hseed : env.netSeed.WellShaped) {a : GenArgs}
    (hm : a.model = "DRD") (hf : a.path = some f) (hz : a.zref ≠ 0) :
    let s := ops.foldl (fun s o => o.run prob.learnNu s) s0
    genScales env a = .ok (.nn net (Real.exp s.logL * a.zref)
      (4 * Real.pi * Real.exp s.logL ^ (-5 / 3 : ℝ) * Real.exp s.logM * a.ustar ^ 2 * a.zref ^ (-2 / 3 : ℝ))
      (Real.exp s.logT) a.zref, Real.exp s.logL * a.zref, Real.exp s.logT) := by
  intro s
  obtain ⟨s', hl, -, -, hp, -, -⟩ := C42_round_trip hs hseed h0 ops hops loss saveDir outDir fs fs' f hsave
    (noise' := env.netNoise)
  rw [← hfs, ← hh] at hl
  have hk : s'.kind = .taunet net := by
    have e := congrArg OPSParams.ty hp
    simp only [OPS.params] at e
    have hi : ∀ t : OPS, t.initApprox.kind = t.kind := fun t => rfl
    have e2 : (ops.foldl (fun s o => o.run prob.learnNu s) s0).initApprox.ty = .taunet net := by
      unfold OPS.ty
      rw [hi, hnet]
    rw [e2] at e
    unfold OPS.ty at e
    rw [hi] at e
    cases hk : s'.kind with
    | taunet n => rw [hk] at e; simp only [EddyType.taunet.injEq] at e; rw [e]
    | _ => rw [hk] at e; cases e
  have e1 : s'.logL = s.logL := congrArg OPSParams.logL hp
  have e2 : s'.logT = s.logT := congrArg OPSParams.logT hp
  have e3 : s'.logM = s.logM := congrArg OPSParams.logM hp
  rw [← e1, ← e2, ← e3]
  exact genScales_drd hm hf hl hk hz

/-- **C100** What the generator takes over.  After any training of a network lifetime and saving, a generator can be built
from the file for every box with positive dimensions (whatever the random initialisation at load time). -/
theorem C100_accepted (hs : seed.WellShaped)
    (h0 : calibInit hyp deviceOk (some nn) prob phys integ seed noise = .ok s0)
    (ops : List SessionOp) (hops : ∀ o ∈ ops, o.Legal prob.learnNu (s0.paramVec prob.learnNu).length)
    (loss : LossParams) (saveDir outDir : Option DirArg) (fs fs' : FS) (f : String)
    (hsave : saveModel saveDir outDir
      ⟨nn, prob, loss, phys, (ops.foldl (fun s o => o.run prob.learnNu s) s0).paramVec prob.learnNu⟩ fs = (.ok f, fs'))
    {net : TauNet} (hnet : (ops.foldl (fun s o => o.run prob.learnNu s) s0).kind = .taunet net)
    {env : GenEnv} (hfs : env.fs = fs') (hh : env.hyp = hyp) (hseed : env.netSeed.WellShaped) {a : GenArgs}
    (hm : a.model = "DRD") (hf : a.path = some f) (hz : 0 < a.zref) (hd : 0 < a.d1 ∧ 0 < a.d2 ∧ 0 < a.d3)
    (hlow : a.low = none) : ∃ g, genInit env a = (.ok g, env.globPos) := by
  have h := saved_scales hs h0 ops hops loss saveDir outDir fs fs' f hsave hnet hfs hh hseed hm hf hz.ne'
  exact genInit_of_scales h hd ⟨by positivity, by positivity⟩ hlow

/-- **C100** The kernel of such a generator holds the trained network, the length scale `zref` times the trained one and the
trained time scale, and buffer and margins are sized with these scales. -/
theorem C100_takeover (hs : seed.WellShaped)
    (h0 : calibInit hyp deviceOk (some nn) prob phys integ seed noise = .ok s0)
    (ops : List SessionOp) (hops : ∀ o ∈ ops, o.Legal prob.learnNu (s0.paramVec prob.learnNu).length)
    (loss : LossParams) (saveDir outDir : Option DirArg) (fs fs' : FS) (f : String)
    (hsave : saveModel saveDir outDir
      ⟨nn, prob, loss, phys, (ops.foldl (fun s o => o.run prob.learnNu s) s0).paramVec prob.learnNu⟩ fs = (.ok f, fs'))
    {net : TauNet} (hnet : (ops.foldl (fun s o => o.run prob.learnNu s) s0).kind = .taunet net)
    {env : GenEnv} (hfs : env.fs = fs') (hh : env.hyp = hyp) (hseed : env.netSeed.WellShaped) {a : GenArgs}
    (hm : a.model = "DRD") (hf : a.path = some f) (hz : a.zref ≠ 0) {g : Gen} {q : ℕ} (hg : genInit env a = (.ok g, q)) :
    let s := ops.foldl (fun s o => o.run prob.learnNu s) s0
    let l := Real.exp s.logL
    let T := Real.exp s.logT
    ∃ E0, g.kernel = .nn net (l * a.zref) E0 T a.zref ∧
      E0 = Spec.amplitude l * Real.exp s.logM * a.ustar ^ 2 * a.zref ^ (-2 / 3 : ℝ) ∧
      g.nb = ⌈3 * T * (l * a.zref) / (a.d1 / (2 ^ a.l1 + 1 : ℕ))⌉ ∧ g.my = ⌈l * a.zref / (a.d2 / (2 ^ a.l2 + 1 : ℕ))⌉ ∧
      g.mz = ⌈l * a.zref / (a.d3 / (2 ^ a.l3 + 1 : ℕ))⌉ := by
  intro s l T
  have hsc := saved_scales hs h0 ops hops loss saveDir outDir fs fs' f hsave hnet hfs hh hseed hm hf hz
  obtain ⟨K, L, T', h1, -, -, -, -, -, ⟨-, hb, hy, hz'⟩, hK, -⟩ := genInit_ok hg
  rw [hsc] at h1
  simp only [Except.ok.injEq, Prod.mk.injEq] at h1
  obtain ⟨rfl, rfl, rfl⟩ := h1
  exact ⟨_, hK, rfl, hb, hy, hz'⟩

end takeover

/-! ### The spectral tensor -/

/-- The dimensional form of the fitted tensor: lengths in units of the reference height, velocities in units of the friction
velocity. -/
def Spec.dimensional (p : OPSParams) (u z : ℝ) (k1 k2 k3 : ℝ) (i j : Fin 3) : ℝ :=
  u ^ 2 * z ^ 3 * Spec.fitTensor p (z * k1) (z * k2) (z * k3) i j

theorem vec_scale (z : ℝ) (k1 k2 k3 : ℝ) : (fun i => z * (![k1, k2, k3] : Fin 3 → ℝ) i) = ![z * k1, z * k2, z * k3] := by
  funext i
  fin_cases i <;> rfl

/-- Tensor of the kernel of C100_takeover at the lifetime `b`. -/
theorem trained_tensor {z : ℝ} (hz : 0 < z) (l M u k1 k2 k3 b : ℝ) (i j : Fin 3) :
    shearedTensor (vkE (l * z) (Spec.amplitude l * M * u ^ 2 * z ^ (-2 / 3 : ℝ))) ![k1, k2, k3] b i j =
      Spec.amplitude l * (u ^ 2 * z ^ 3 * shearedTensor (vkE l M) ![z * k1, z * k2, z * k3] b i j) := by
  have h := shearedTensor_scale hz (E := vkE l M) (E' := vkE (l * z) (Spec.amplitude l * M * u ^ 2 * z ^ (-2 / 3 : ℝ)))
    (c := Spec.amplitude l * (u ^ 2 * z)) (fun κ hκ => vkE_scale hz hκ) ![k1, k2, k3] b
  rw [h, vec_scale, Matrix.smul_apply, smul_eq_mul]
  ring

theorem lifetime_scale (hyp : ℝ → ℝ) (net : TauNet) {l : ℝ} (hl : l ≠ 0) (z T k1 k2 k3 : ℝ) :
    eddyLifetime hyp (.taunet net) z T ⟨k1, k2, k3⟩ =
      eddyLifetime hyp (.taunet net) l T ⟨z / l * k1, z / l * k2, z / l * k3⟩ := by
  have e : ∀ x : ℝ, z / l * x * l = x * z := fun x => by field_simp
  simp only [eddyLifetime, e]

/-- **C100** The spectral tensor of the generator of C100_takeover at wavevector `k`: `4 pi l^(-5/3)` times the dimensional
form `u*^2 zref^3 Φ(zref k)` of the tensor of the fit, except that the lifetime is taken at `zref k / l` instead of
`zref k` (see C16). -/
theorem C100_tensor (net : TauNet) (hn : net.Nondegenerate) {l M T u z : ℝ} (hl : 0 < l) (hM : 0 ≤ M) (hz : 0 < z)
    (hyp : ℝ → ℝ) {k : K3} (hk : k.k1 ≠ 0) :
    let A := times1j ((GenKernel.nn net (l * z) (Spec.amplitude l * M * u ^ 2 * z ^ (-2 / 3 : ℝ)) T z).eval k)
    ∃ b, eddyLifetime hyp (.taunet net) l T (k.smul (z / l)) = fin b ∧
      A * A.conjTranspose = (Spec.amplitude l * (u ^ 2 * z ^ 3)) •
        (shearedTensor (vkE l M) (k.smul z).vec b).map fun x : ℝ => (x : ℂ) := by
  intro A
  have hkv : k.vec ≠ 0 := fun h0 => hk (by
    have := congrFun h0 0
    simpa [K3.vec] using this)
  have hA : 0 ≤ Spec.amplitude l := by unfold Spec.amplitude; positivity
  obtain ⟨b, hb⟩ := nnBeta_fin hn T hz.ne' k
  refine ⟨b, by rw [← C16_missing_length_scale hyp net hl.ne' T z hkv, hb], ?_⟩
  have h := C14_kernel_square (L := l * z) (M := Spec.amplitude l * M * u ^ 2 * z ^ (-2 / 3 : ℝ)) (by positivity)
    (by positivity) hk b
  have hAe : A = times1j (shearKernel (l * z) (Spec.amplitude l * M * u ^ 2 * z ^ (-2 / 3 : ℝ)) k (fin b)) := by
    show times1j (nnKernel _ _ _ _ _ k) = _
    unfold nnKernel
    rw [hb]
  rw [hAe, h]
  ext i j
  have e := trained_tensor hz l M u k.k1 k.k2 k.k3 b i j
  have ev : k.vec = ![k.k1, k.k2, k.k3] := rfl
  have ez : (k.smul z).vec = ![z * k.k1, z * k.k2, z * k.k3] := rfl
  rw [Matrix.map_apply, Matrix.smul_apply, Matrix.map_apply, ev, e, ez, Complex.real_smul]
  push_cast
  ring

/-- The parameters of a fit with a network lifetime and the von Karman energy spectrum. -/
def netParams (hyp : ℝ → ℝ) (net : TauNet) (logL logT logM : ℝ) : OPSParams := ⟨hyp, .taunet net, .vkLike, logL, logT, logM⟩

/-- **C100** For a trained length scale of one the generator's tensor is `4 pi` times the dimensional form of the fitted
one. -/
theorem C100_unit_length (hyp : ℝ → ℝ) (net : TauNet) (hn : net.Nondegenerate) (logT logM : ℝ) {u z : ℝ} (hz : 0 < z)
    {k1 : ℝ} (hk : k1 ≠ 0) (k2 k3 : ℝ) (i j : Fin 3) :
    let A := times1j ((GenKernel.nn net (1 * z) (Spec.amplitude 1 * Real.exp logM * u ^ 2 * z ^ (-2 / 3 : ℝ)) (Real.exp logT)
      z).eval ⟨k1, k2, k3⟩)
    (A * A.conjTranspose) i j = ((4 * Real.pi * Spec.dimensional (netParams hyp net 0 logT logM) u z k1 k2 k3 i j : ℝ) : ℂ) := by
  intro A
  obtain ⟨b, hb, h⟩ := C100_tensor net hn (l := 1) (M := Real.exp logM) (T := Real.exp logT) (u := u) one_pos
    (Real.exp_pos _).le hz hyp (k := ⟨k1, k2, k3⟩) hk
  have e1 : Spec.amplitude 1 = 4 * Real.pi := by unfold Spec.amplitude; rw [Real.one_rpow, mul_one]
  have e2 : (netParams hyp net 0 logT logM).L = 1 := Real.exp_zero
  have e3 : (netParams hyp net 0 logT logM).M = Real.exp logM := rfl
  have e4 : (netParams hyp net 0 logT logM).T = Real.exp logT := rfl
  rw [h, Matrix.smul_apply, Matrix.map_apply, Complex.real_smul, e1]
  unfold Spec.dimensional Spec.fitTensor
  rw [e2, e3, e4]
  rw [div_one] at hb
  have e5 : eddyLifetime (netParams hyp net 0 logT logM).hyp (netParams hyp net 0 logT logM).ty 1 (Real.exp logT)
      ⟨z * k1, z * k2, z * k3⟩ = fin b := hb
  rw [e5, toReal_fin]
  have ev : (K3.smul z ⟨k1, k2, k3⟩).vec = ![z * k1, z * k2, z * k3] := rfl
  rw [ev]
  show _ = ((4 * Real.pi * (u ^ 2 * z ^ 3 * shearedTensor (vkE 1 (Real.exp logM)) ![z * k1, z * k2, z * k3] b i j) : ℝ) : ℂ)
  push_cast
  ring

theorem sheared22_pos {k : K3} (h : k.k1 ≠ 0) {E : ℝ → ℝ} (hE : ∀ κ, 0 < κ → 0 < E κ) (b : ℝ) :
    0 < shearedTensor E k.vec b 2 2 := by
  have hk0 := kk0R_pos (b := b) h
  have hk := kkR_pos h
  have hs := sR_pos h
  have hpi := Real.pi_pos
  have hEp := hE _ (Real.sqrt_pos.2 hk0)
  rw [shearedTensor_eq h]
  refine mul_pos (by positivity) ?_
  simp only [Fin.sum_univ_three, kerR, zc_generic h, z3R]
  have hq : 0 < kk0R k b / kkR k := div_pos hk0 hk
  have h1 : 0 < k.k1 * k.k1 := mul_self_pos.2 h
  simp
  nlinarith [mul_pos (mul_pos hq hq) h1, mul_self_nonneg (kk0R k b / kkR k * k.k2)]

/-- **C100** So the generator's tensor is never the dimensional form of the fitted one at a trained length scale of one. -/
theorem C100_not_dimensional (hyp : ℝ → ℝ) (net : TauNet) (hn : net.Nondegenerate) (logT logM : ℝ) {u z : ℝ} (hu : u ≠ 0)
    (hz : 0 < z) {k1 : ℝ} (hk : k1 ≠ 0) (k2 k3 : ℝ) :
    let A := times1j ((GenKernel.nn net (1 * z) (Spec.amplitude 1 * Real.exp logM * u ^ 2 * z ^ (-2 / 3 : ℝ)) (Real.exp logT)
      z).eval ⟨k1, k2, k3⟩)
    (A * A.conjTranspose) 2 2 ≠ ((Spec.dimensional (netParams hyp net 0 logT logM) u z k1 k2 k3 2 2 : ℝ) : ℂ) := by
  intro A h
  rw [C100_unit_length hyp net hn logT logM hz hk, Complex.ofReal_inj] at h
  have hpos : 0 < Spec.dimensional (netParams hyp net 0 logT logM) u z k1 k2 k3 2 2 := by
    unfold Spec.dimensional Spec.fitTensor
    have := sheared22_pos (k := ⟨z * k1, z * k2, z * k3⟩) (mul_ne_zero hz.ne' hk)
      (E := Spec.energyOf (netParams hyp net 0 logT logM).L (netParams hyp net 0 logT logM).M .vkLike) (fun κ hκ => by
        have h1 : 0 < (netParams hyp net 0 logT logM).L := Real.exp_pos _
        have h2 : 0 < (netParams hyp net 0 logT logM).M := Real.exp_pos _
        unfold Spec.energyOf vkE
        positivity) (eddyLifetime (netParams hyp net 0 logT logM).hyp (netParams hyp net 0 logT logM).ty
          (netParams hyp net 0 logT logM).L (netParams hyp net 0 logT logM).T ⟨z * k1, z * k2, z * k3⟩).toReal
    exact mul_pos (by positivity) this
  have hpi := Real.two_le_pi
  nlinarith

/-- **C100** Fields sampled by the generator of C100_takeover: under grid refinement their spectra along the mean wind tend to
the integrals, over the resolved transverse wavenumbers, of `4 pi l^(-5/3) u*^2 zref^3` times the tensor of the fit at
`zref k`, with the lifetime at `zref k / l`. -/
theorem C100_field (net : TauNet) (hn : net.Nondegenerate) (ha : net.ContActs) {l M T u z : ℝ} (hl : 0 < l) (hM : 0 ≤ M)
    (hT : 0 < T) (hz : 0 < z) (hyp : ℝ → ℝ) :
    Spec.SpectrumLimit (.nn net (l * z) (Spec.amplitude l * M * u ^ 2 * z ^ (-2 / 3 : ℝ)) T z) fun k1 k2 k3 i j =>
      Spec.amplitude l * (u ^ 2 * z ^ 3 * shearedTensor (vkE l M) ![z * k1, z * k2, z * k3]
        (eddyLifetime hyp (.taunet net) l T ⟨z / l * k1, z / l * k2, z / l * k3⟩).toReal i j) := by
  have hA : 0 ≤ Spec.amplitude l := by unfold Spec.amplitude; positivity
  have h := C95_limit_nn net hn ha (L := l * z) (E0 := Spec.amplitude l * M * u ^ 2 * z ^ (-2 / 3 : ℝ)) (Γ := T) (h := z)
    (by positivity) (by positivity) hT hz hyp
  have e : (fun (k1 k2 k3 : ℝ) (i j : Fin 3) => shearedTensor (vkE (l * z) (Spec.amplitude l * M * u ^ 2 * z ^ (-2 / 3 : ℝ)))
        ![k1, k2, k3] (eddyLifetime hyp (.taunet net) z T ⟨k1, k2, k3⟩).toReal i j) = fun k1 k2 k3 i j =>
      Spec.amplitude l * (u ^ 2 * z ^ 3 * shearedTensor (vkE l M) ![z * k1, z * k2, z * k3]
        (eddyLifetime hyp (.taunet net) l T ⟨z / l * k1, z / l * k2, z / l * k3⟩).toReal i j) := by
    funext k1 k2 k3 i j
    rw [trained_tensor hz, lifetime_scale hyp net hl.ne' z]
  rw [← e]
  exact h

theorem square_dilate (c : ℝ) {z : ℝ} (hz : 0 < z) (a : ℝ) (f : ℝ → ℝ → ℝ) :
    Spec.square a (fun k2 k3 => c * z ^ 2 * f (z * k2) (z * k3)) = c * Spec.square (z * a) f := by
  unfold Spec.square
  have e : ∀ k2 : ℝ, (∫ k3 in (-a)..a, c * z ^ 2 * f (z * k2) (z * k3)) =
      c * z * ∫ k3 in (-(z * a))..(z * a), f (z * k2) k3 := by
    intro k2
    have h := intervalIntegral.integral_comp_mul_left (a := -a) (b := a) (fun k3 => f (z * k2) k3) hz.ne'
    rw [smul_eq_mul, mul_neg] at h
    rw [intervalIntegral.integral_const_mul, h]
    field_simp
  simp only [e]
  have h := intervalIntegral.integral_comp_mul_left (a := -a) (b := a) (fun k2 => ∫ k3 in (-(z * a))..(z * a), f k2 k3) hz.ne'
  rw [smul_eq_mul, mul_neg] at h
  rw [intervalIntegral.integral_const_mul, h]
  field_simp

/-- **C100** One-point spectra at a trained length scale of one: `k1` times the integral of the generator's tensor over a
square of transverse wavenumbers is `4 pi u*^2` times the same quantity of the fit (the integral of C94) at the
non-dimensional wavenumber `zref k1`, over the square enlarged by `zref`. -/
theorem C100_one_point (hyp : ℝ → ℝ) (net : TauNet) (hn : net.Nondegenerate) (logT logM : ℝ) {u z : ℝ} (hz : 0 < z)
    {k1 : ℝ} (hk : k1 ≠ 0) (a : ℝ) (i j : Fin 3) :
    let A := fun k2 k3 => times1j ((GenKernel.nn net (1 * z) (Spec.amplitude 1 * Real.exp logM * u ^ 2 * z ^ (-2 / 3 : ℝ))
      (Real.exp logT) z).eval ⟨k1, k2, k3⟩)
    k1 * Spec.square a (fun k2 k3 => ((A k2 k3 * (A k2 k3).conjTranspose) i j).re) =
      4 * Real.pi * u ^ 2 * (z * k1 * Spec.square (z * a) fun k2 k3 =>
        Spec.fitTensor (netParams hyp net 0 logT logM) (z * k1) k2 k3 i j) := by
  intro A
  have e : (fun k2 k3 => ((A k2 k3 * (A k2 k3).conjTranspose) i j).re) = fun k2 k3 => 4 * Real.pi * u ^ 2 * z * z ^ 2 *
      (fun k2 k3 => Spec.fitTensor (netParams hyp net 0 logT logM) (z * k1) k2 k3 i j) (z * k2) (z * k3) := by
    funext k2 k3
    have h := C100_unit_length hyp net hn logT logM (u := u) hz hk k2 k3 i j
    have h' := congrArg Complex.re h
    rw [Complex.ofReal_re] at h'
    rw [show ((A k2 k3 * (A k2 k3).conjTranspose) i j).re = _ from h']
    unfold Spec.dimensional
    ring
  rw [e]
  refine (congrArg (k1 * ·) (square_dilate (4 * Real.pi * u ^ 2 * z) hz a
    fun k2 k3 => Spec.fitTensor (netParams hyp net 0 logT logM) (z * k1) k2 k3 i j)).trans ?_
  ring

/-- A freshly built fitting object with a network lifetime, saved into a directory, meets the hypotheses. -/
example (hyp : ℝ → ℝ) (fs : FS) (loss : LossParams) : ∃ (seed : NetSeed) (s0 : OPS) (net : TauNet), seed.WellShaped ∧
    calibInit hyp true (some ⟨some 2, .int 10⟩) ⟨4, 1e-3, 10, false, .taunet, false, false, 4, 17 / 6⟩
      ⟨0.59, 3.9, 3.2, 10, 1, 1, 1⟩ .default seed [] = .ok s0 ∧ s0.kind = .taunet net ∧
    ∃ f fs', saveModel (some (.str "out")) none ⟨⟨some 2, .int 10⟩, ⟨4, 1e-3, 10, false, .taunet, false, false, 4, 17 / 6⟩, loss,
      ⟨0.59, 3.9, 3.2, 10, 1, 1, 1⟩, s0.paramVec false⟩ fs = (.ok f, fs') := by
  let seed : NetSeed := ⟨fun shapes => shapes.map fun s => List.replicate s.2 (List.replicate s.1 1), 0⟩
  have hw : seed.WellShaped := by
    intro shapes
    simp [seed, shapesOf]
  obtain ⟨s0, h0⟩ := (C38_outcome hyp true (some ⟨some 2, .int 10⟩) ⟨4, 1e-3, 10, false, .taunet, false, false, 4, 17 / 6⟩
    ⟨0.59, 3.9, 3.2, 10, 1, 1, 1⟩ .default seed []).2 ⟨⟨rfl, by simp, by norm_num, _, rfl, fun _ => ⟨2, rfl, by decide, by decide, trivial⟩⟩, by simp⟩
  obtain ⟨net, hn, -⟩ := C07_fixed_exponent h0 rfl rfl [] (by simp)
  exact ⟨seed, s0, net, hw, h0, hn, _, _, rfl⟩

end
end Verif
