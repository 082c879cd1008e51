import Verif.Props.SpectrumEnds
import Verif.Props.Diagnostics

/-!
# The unit of length in the fitted one-point spectra: C126
-/

namespace Verif
open Fl Filter Topology MeasureTheory Verif.Spec

noncomputable section

/-! ### Specification: what a change of the unit of length is -/

/-- The same physical parameters when lengths are measured in a unit `t` times smaller: every length is `t` times as large a
number.  `L` is a length; the magnitude `αε^{2/3}` has the dimension length^(4/3)/time²; the time scale multiplies the shear and
has no length in it. -/
def Spec.inUnit (t : ℝ) (p : OPSParams) : OPSParams :=
  { p with logL := p.logL + Real.log t, logM := p.logM + 4 / 3 * Real.log t }

/-- The same fitted object, its transverse grid untouched, with the parameters expressed in the other unit. -/
def OPS.inUnit (t : ℝ) (s : OPS) : OPS :=
  { s with logL := s.logL + Real.log t, logM := s.logM + 4 / 3 * Real.log t }

theorem inUnit_L {t : ℝ} (ht : 0 < t) (p : OPSParams) : (Spec.inUnit t p).L = t * p.L := by
  simp [OPSParams.L, Spec.inUnit, Real.exp_add, Real.exp_log ht, mul_comm]

theorem inUnit_M {t : ℝ} (ht : 0 < t) (p : OPSParams) : (Spec.inUnit t p).M = t ^ (4 / 3 : ℝ) * p.M := by
  simp only [OPSParams.M, Spec.inUnit, Real.exp_add]
  rw [Real.rpow_def_of_pos ht, mul_comm, mul_comm (Real.log t)]

theorem inUnit_T (t : ℝ) (p : OPSParams) : (Spec.inUnit t p).T = p.T := rfl

theorem inUnit_params (t : ℝ) (s : OPS) : (s.inUnit t).params = Spec.inUnit t s.params := by
  unfold OPS.params OPS.inUnit Spec.inUnit OPS.initApprox OPS.ty
  cases s.kind <;> rfl

/-! ### Homogeneity of the tensor -/

theorem lifetime_unit (hyp : ℝ → ℝ) (ty : EddyType) {t : ℝ} (ht : 0 < t) (L T : ℝ) (k1 k2 k3 : ℝ) :
    eddyLifetime hyp ty (t * L) T ⟨k1 / t, k2 / t, k3 / t⟩ = eddyLifetime hyp ty L T ⟨k1, k2, k3⟩ := by
  have e1 : t * L * vecNorm [k1 / t, k2 / t, k3 / t] = L * vecNorm [k1, k2, k3] := by
    have : [k1 / t, k2 / t, k3 / t] = [t⁻¹ * k1, t⁻¹ * k2, t⁻¹ * k3] := by simp [div_eq_inv_mul]
    rw [this, vecNorm_smul (by positivity) ⟨k1, k2, k3⟩]
    field_simp
  have e2 : ∀ x : ℝ, x / t * (t * L) = x * L := fun x => by field_simp
  unfold eddyLifetime
  simp only [fin_mul_fin, e1, e2]

theorem energyOf_unit {t : ℝ} (ht : 0 < t) {L : ℝ} (hL : 0 < L) (M : ℝ) (sp : SpectrumChoice) {κ : ℝ} (hκ : 0 ≤ κ) :
    Spec.energyOf (t * L) (t ^ (4 / 3 : ℝ) * M) sp (t⁻¹ * κ) = t ^ 3 * Spec.energyOf L M sp κ := by
  have e : t * L * (t⁻¹ * κ) = L * κ := by field_simp
  have e' : t⁻¹ * κ * (t * L) = κ * L := by field_simp
  have h3 : t ^ (4 / 3 : ℝ) * t ^ (5 / 3 : ℝ) = t ^ 3 := by
    rw [← Real.rpow_add ht, ← Real.rpow_natCast]; norm_num
  cases sp with
  | vkLike =>
    show vkE _ _ _ = t ^ 3 * vkE _ _ _
    unfold vkE
    rw [e', Real.mul_rpow (by positivity) hκ, Real.inv_rpow ht.le, ← Real.rpow_neg ht.le, ← h3]
    norm_num
    ring
  | learnable p q =>
    show Spec.learnE _ _ _ _ _ = t ^ 3 * Spec.learnE _ _ _ _ _
    unfold Spec.learnE
    rw [e, Real.mul_rpow ht.le hL.le, ← h3]
    ring

theorem shearSq_scale (c k1 k2 K x : ℝ) : shearSq (c * k1) (c * k2) (c * K) x = c ^ 2 * shearSq k1 k2 K x := by
  unfold shearSq; ring

theorem distortion_unit_scale {c : ℝ} (hc : c ≠ 0) (k1 k2 k3 b : ℝ) :
    distortion ![c * k1, c * k2, c * k3] b = distortion ![k1, k2, k3] b := by
  have h3 : ∀ K x : ℝ, rdt3 (c * k1) (c * k2) (c * K) x = rdt3 k1 k2 K x := fun K x => by
    unfold rdt3
    rw [shearSq_scale, shearSq_scale, mul_div_mul_left _ _ (by positivity)]
  have h1 : ∀ K x : ℝ, rdt1 (c * k1) (c * k2) (c * K) x = rdt1 k1 k2 K x := fun K x => by
    unfold rdt1
    congr 1; funext u
    rw [h3, shearSq_scale, mul_pow, show 2 * (c ^ 2 * k1 ^ 2) = c ^ 2 * (2 * k1 ^ 2) by ring,
      mul_div_mul_left _ _ (by positivity)]
  have h2 : ∀ K x : ℝ, rdt2 (c * k1) (c * k2) (c * K) x = rdt2 k1 k2 K x := fun K x => by
    unfold rdt2
    congr 1; funext u
    rw [h3, shearSq_scale, show 2 * (c * k1) * (c * k2) = c ^ 2 * (2 * k1 * k2) by ring,
      mul_div_mul_left _ _ (by positivity)]
  have hK : c * k3 + b * (c * k1) = c * (k3 + b * k1) := by ring
  unfold distortion
  simp only [Matrix.cons_val_zero, Matrix.cons_val_one, Matrix.cons_val_two, Matrix.head_cons, Matrix.tail_cons, Matrix.cons_val,
    hK, h1, h2, h3]

theorem isoTensor_unit_scale {t : ℝ} (ht : 0 < t) (E E' : ℝ → ℝ) (hE : ∀ κ, 0 ≤ κ → E' (t⁻¹ * κ) = t ^ 3 * E κ) (q : Fin 3 → ℝ)
    (i j : Fin 3) : isoTensor E' (fun l => t⁻¹ * q l) i j = t ^ 5 * isoTensor E q i j := by
  unfold isoTensor
  have hs : sq3 (fun l => t⁻¹ * q l) = (t⁻¹) ^ 2 * sq3 q := by unfold sq3; ring
  have hn : 0 ≤ sq3 q := by unfold sq3; positivity
  have hr : Real.sqrt ((t⁻¹) ^ 2 * sq3 q) = t⁻¹ * Real.sqrt (sq3 q) := by
    rw [Real.sqrt_mul (by positivity), Real.sqrt_sq (by positivity)]
  rw [hs, hr, hE _ (Real.sqrt_nonneg _), show t⁻¹ * q i * (t⁻¹ * q j) = (t⁻¹) ^ 2 * (q i * q j) by ring,
    mul_div_mul_left _ _ (by positivity)]
  have : t ^ 3 * E (Real.sqrt (sq3 q)) / (4 * Real.pi * ((t⁻¹) ^ 2 * sq3 q)) =
      t ^ 5 * (E (Real.sqrt (sq3 q)) / (4 * Real.pi * sq3 q)) := by
    field_simp
  rw [this, mul_assoc]

theorem shearedTensor_unit_scale {t : ℝ} (ht : 0 < t) (E E' : ℝ → ℝ) (hE : ∀ κ, 0 ≤ κ → E' (t⁻¹ * κ) = t ^ 3 * E κ)
    (k1 k2 k3 b : ℝ) (i j : Fin 3) :
    shearedTensor E' ![t⁻¹ * k1, t⁻¹ * k2, t⁻¹ * k3] b i j = t ^ 5 * shearedTensor E ![k1, k2, k3] b i j := by
  have e : initialWave ![t⁻¹ * k1, t⁻¹ * k2, t⁻¹ * k3] b = fun l => t⁻¹ * initialWave ![k1, k2, k3] b l := by
    funext l
    unfold initialWave
    fin_cases l <;> simp
    ring
  have hM : isoTensor E' (fun l => t⁻¹ * initialWave ![k1, k2, k3] b l) =
      t ^ 5 • isoTensor E (initialWave ![k1, k2, k3] b) := by
    ext i j
    rw [isoTensor_unit_scale ht E E' hE]
    rfl
  unfold shearedTensor
  rw [distortion_unit_scale (inv_ne_zero ht.ne'), e, hM, Matrix.mul_smul, Matrix.smul_mul]
  rfl

/-- C126: the spectral tensor a configuration stands for is a physical quantity: expressed in a unit `t` times smaller it is
`t^5` times as large a number (velocity² times volume) at the same physical wavevector, for every lifetime model. -/
theorem C126_tensor {t : ℝ} (ht : 0 < t) (p : OPSParams) (k1 k2 k3 : ℝ) (i j : Fin 3) :
    Spec.fitTensor (Spec.inUnit t p) (k1 / t) (k2 / t) (k3 / t) i j = t ^ 5 * Spec.fitTensor p k1 k2 k3 i j := by
  unfold Spec.fitTensor
  rw [inUnit_L ht, inUnit_M ht, inUnit_T, show (Spec.inUnit t p).hyp = p.hyp from rfl,
    show (Spec.inUnit t p).ty = p.ty from rfl, show (Spec.inUnit t p).sp = p.sp from rfl, lifetime_unit _ _ ht]
  rw [div_eq_inv_mul k1, div_eq_inv_mul k2, div_eq_inv_mul k3]
  exact shearedTensor_unit_scale ht _ _ (fun κ hκ => energyOf_unit ht p.L_pos p.M p.sp hκ) _ _ _ _ _ _

/-- C126: the exact spectrum `k1 F(k1)` (velocity²) over corresponding squares is the same physical quantity. -/
theorem C126_exact {t : ℝ} (ht : 0 < t) (p : OPSParams) (k1 a : ℝ) (i j : Fin 3) :
    (k1 / t * Spec.square (a / t) fun k2 k3 => Spec.fitTensor (Spec.inUnit t p) (k1 / t) k2 k3 i j) =
      t ^ 2 * (k1 * Spec.square a fun k2 k3 => Spec.fitTensor p k1 k2 k3 i j) := by
  have key : ∀ f : ℝ → ℝ, ∫ x in (-(a / t))..(a / t), f x = t⁻¹ * ∫ x in (-a)..a, f (x / t) := fun f => by
    rw [intervalIntegral.integral_comp_div f ht.ne', smul_eq_mul, neg_div]
    field_simp
  unfold Spec.square
  rw [key]
  simp only [key, C126_tensor ht, intervalIntegral.integral_const_mul]
  field_simp

/-! ### The numbers `forward` returns -/

theorem trapz_unit_scale {c : ℝ} (g : List ℝ) (y : List ℝ) : trapz (g.map fun x => c * x) y = c * trapz g y := by
  induction g generalizing y with
  | nil => simp [trapz]
  | cons a l ih =>
    cases l with
    | nil => cases y <;> simp [trapz]
    | cons b l =>
      match y with
      | [] => simp [trapz]
      | [_] => simp [trapz]
      | y0 :: y1 :: ys =>
        have := ih (y1 :: ys)
        simp only [List.map_cons] at this
        simp only [List.map_cons, trapz, this, smul_eq_mul]
        ring

theorem quad23_unit_scale (c : ℝ) (g : List ℝ) (f : ℝ → ℝ → ℝ) :
    quad23 (g.map fun x => c * x) (g.map fun x => c * x) f = c ^ 2 * quad23 g g fun x y => f (c * x) (c * y) := by
  unfold quad23
  rw [trapz_unit_scale]
  simp only [List.map_map, Function.comp_def, trapz_unit_scale]
  rw [trapz_smul_right]
  ring

/-! ### Where the diagonal entries vanish -/

theorem zeta_div {k : K3} (h1 : k.k1 ≠ 0) (b : ℝ) : k.k1 * z1R k b + k.k2 * z2R k b + k.k3 * z3R k b = k30R k b := by
  have hs := (sR_pos h1).ne'
  have hkp := (kkR_pos h1).ne'
  have e1 : k.k1 * z1R k b + k.k2 * z2R k b = sR k / k.k1 * c1R k b := by
    unfold z1R z2R sR
    field_simp
    ring
  rw [e1]
  unfold c1R z3R
  field_simp
  unfold kk0R k30R kkR
  ring

/-- At wavevectors along the wind the `uu` entry is zero: the tensor is incompressible. -/
theorem fitTensor_11_zero (p : OPSParams) (hp : p.LifetimeFinite) {k1 : ℝ} (hk : k1 ≠ 0) : Spec.fitTensor p k1 0 0 0 0 = 0 := by
  have h := (fitTensor_div p hp (k := ⟨k1, 0, 0⟩) hk).2.1
  simp only [zero_mul, add_zero] at h
  exact (mul_eq_zero.1 h).resolve_left hk

/-- At all others it is positive. -/
theorem fitTensor_11_pos (p : OPSParams) (hp : p.LifetimeFinite) {k1 : ℝ} (hk : k1 ≠ 0) {k2 k3 : ℝ} (h : k2 ≠ 0 ∨ k3 ≠ 0) :
    0 < Spec.fitTensor p k1 k2 k3 0 0 := by
  have hne : (⟨k1, k2, k3⟩ : K3).k1 ≠ 0 := hk
  obtain ⟨b, e, he, -, -, hraw⟩ := fitTensor_raw p hp hne
  have h11 := congrArg Phi6.p11 hraw
  rw [phiRaw_fin hne] at h11
  have h11 := Fl.fin.inj h11
  have hk0 := kk0R_pos (b := b) hne
  have hkk := kkR_pos hne
  have hz := zeta_div hne b
  simp only at h11 hz
  rw [← h11]
  refine mul_pos (by positivity) ?_
  have e1 : kk0R ⟨k1, k2, k3⟩ b - k1 * k1 - 2 * k1 * k30R ⟨k1, k2, k3⟩ b * z1R ⟨k1, k2, k3⟩ b +
      sR ⟨k1, k2, k3⟩ * (z1R ⟨k1, k2, k3⟩ b * z1R ⟨k1, k2, k3⟩ b) =
      k2 ^ 2 + (k2 * z1R ⟨k1, k2, k3⟩ b) ^ 2 + (k30R ⟨k1, k2, k3⟩ b - k1 * z1R ⟨k1, k2, k3⟩ b) ^ 2 := by
    unfold kk0R sR
    ring
  rw [e1]
  by_cases h2 : k2 = 0
  · subst h2
    have h3 : k3 ≠ 0 := h.resolve_left (fun z => z rfl)
    have e2 : k30R ⟨k1, 0, k3⟩ b - k1 * z1R ⟨k1, 0, k3⟩ b = k3 * z3R ⟨k1, 0, k3⟩ b := by rw [← hz]; ring
    have h4 : z3R ⟨k1, 0, k3⟩ b ≠ 0 := by unfold z3R; positivity
    rw [e2]
    positivity
  · positivity

theorem fitTensor_22_pos (p : OPSParams) (hp : p.LifetimeFinite) {k1 : ℝ} (hk : k1 ≠ 0) (k2 k3 : ℝ) :
    0 < Spec.fitTensor p k1 k2 k3 1 1 := by
  have hne : (⟨k1, k2, k3⟩ : K3).k1 ≠ 0 := hk
  obtain ⟨b, e, he, -, -, hraw⟩ := fitTensor_raw p hp hne
  have h22 := congrArg Phi6.p22 hraw
  rw [phiRaw_fin hne] at h22
  have h22 := Fl.fin.inj h22
  have hk0 := kk0R_pos (b := b) hne
  simp only at h22
  rw [← h22]
  refine mul_pos (by positivity) ?_
  have e1 : kk0R ⟨k1, k2, k3⟩ b - k2 * k2 - 2 * k2 * k30R ⟨k1, k2, k3⟩ b * z2R ⟨k1, k2, k3⟩ b +
      sR ⟨k1, k2, k3⟩ * (z2R ⟨k1, k2, k3⟩ b * z2R ⟨k1, k2, k3⟩ b) =
      k1 ^ 2 + (k30R ⟨k1, k2, k3⟩ b - k2 * z2R ⟨k1, k2, k3⟩ b) ^ 2 + (k1 * z2R ⟨k1, k2, k3⟩ b) ^ 2 := by
    unfold kk0R sR
    ring
  rw [e1]
  positivity

/-- All diagonal entries are positive except `uu` at wavevectors along the wind. -/
theorem fitTensor_diag_pos (p : OPSParams) (hp : p.LifetimeFinite) {k1 : ℝ} (hk : k1 ≠ 0) {k2 k3 : ℝ} {i : ℕ} (hi : i < 3)
    (h : i ≠ 0 ∨ k2 ≠ 0 ∨ k3 ≠ 0) : 0 < Spec.fitTensor p k1 k2 k3 (Spec.rowEntry i).1 (Spec.rowEntry i).2 := by
  obtain rfl | rfl | rfl : i = 0 ∨ i = 1 ∨ i = 2 := by omega
  · exact fitTensor_11_pos p hp hk (h.resolve_left fun z => z rfl)
  · exact fitTensor_22_pos p hp hk k2 k3
  · have hne : (⟨k1, k2, k3⟩ : K3).k1 ≠ 0 := hk
    obtain ⟨b, e, he, -, -, hraw⟩ := fitTensor_raw p hp hne
    have h33 := congrArg Phi6.p33 hraw
    rw [phiRaw_fin hne] at h33
    have h33 := Fl.fin.inj h33
    have hs := sR_pos hne
    have hkk := kkR_pos hne
    show 0 < Spec.fitTensor p k1 k2 k3 2 2
    rw [← h33]
    positivity

theorem quad23_add (g2 g3 : List ℝ) (f f' : ℝ → ℝ → ℝ) :
    quad23 g2 g3 (fun x y => f x y + f' x y) = quad23 g2 g3 f + quad23 g2 g3 f' := by
  have h := quad23_sub g2 g3 (fun x y => f x y + f' x y) f'
  simp only [add_sub_cancel_right] at h
  linarith

/-- The weight of the node at the origin of the transverse grid in the double trapezoidal sum. -/
def Spec.axisWeight (g : List ℝ) : ℝ := quad23 g g fun y z => open Classical in if y = 0 ∧ z = 0 then 1 else 0

/-- C126: when the transverse grid is expressed in the new unit too, the prediction is the same physical quantity, provided the
absolute floor acts in neither unit.  At the wavevector along the wind the `uu` entry is zero and the floor always acts: if it is
a node of the grid (as in every grid the constructor makes), the `uu` spectrum is the same quantity up to the contribution of that
node. -/
theorem C126_grid {t : ℝ} (ht : 0 < t) (s s' : OPS) (hp : s'.params = Spec.inUnit t s.params)
    (hg : s'.grid = s.grid.map fun x => t⁻¹ * x) (hf : s.params.LifetimeFinite) (hf' : s'.params.LifetimeFinite) (k1s : List ℝ)
    {i j : ℕ} (hi : i < 3) (hj : j < k1s.length) (hk : k1s[j] ≠ 0)
    (h : ∀ y ∈ s.grid, ∀ z ∈ s.grid, i ≠ 0 ∨ y ≠ 0 ∨ z ≠ 0 → max 1 (t ^ 5)⁻¹ * 1e-12 ≤
      Spec.fitTensor s.params k1s[j] y z (Spec.rowEntry i).1 (Spec.rowEntry i).2) :
    Spec.cell (OPS.forward (k1s.map fun k => k / t) s').1 i j = t ^ 2 * Spec.cell (OPS.forward k1s s).1 i j +
      if i = 0 then ((t ^ 3)⁻¹ - t ^ 2) * (k1s[j] * (1e-12 * Spec.axisWeight s.grid)) else 0 := by
  classical
  have hj' : j < (k1s.map fun k => k / t).length := by simpa using hj
  have hk' : (k1s.map fun k => k / t)[j] ≠ 0 := by simpa using ⟨hk, ht.ne'⟩
  rw [forward_cell_floor k1s s hf (by omega) (by omega) hj hk, forward_cell_floor _ s' hf' (by omega) (by omega) hj' hk', hg, quad23_unit_scale, hp]
  simp only [List.getElem_map]
  have h5 : 0 < t ^ 5 := by positivity
  obtain ⟨w, hw⟩ : ∃ w : ℝ → ℝ → ℝ, w = fun y z => if y = 0 ∧ z = 0 then 1 else 0 := ⟨_, rfl⟩
  obtain ⟨c, hc⟩ : ∃ c : ℝ, c = if i = 0 then (1 - t ^ 5) * 1e-12 else 0 := ⟨_, rfl⟩
  have e1 : (quad23 s.grid s.grid fun x y => max (Spec.fitTensor (Spec.inUnit t s.params) (k1s[j] / t) (t⁻¹ * x) (t⁻¹ * y)
      (Spec.rowEntry i).1 (Spec.rowEntry i).2) 1e-12) =
      quad23 s.grid s.grid fun x y => t ^ 5 * max (Spec.fitTensor s.params k1s[j] x y (Spec.rowEntry i).1 (Spec.rowEntry i).2)
        1e-12 + c * w x y := by
    unfold quad23
    congr 1
    refine List.map_congr_left fun x hx => ?_
    congr 1
    refine List.map_congr_left fun y hy => ?_
    show max (Spec.fitTensor (Spec.inUnit t s.params) (k1s[j] / t) (t⁻¹ * x) (t⁻¹ * y) _ _) _ = t ^ 5 * max _ _ + _
    rw [← div_eq_inv_mul, ← div_eq_inv_mul, C126_tensor ht]
    by_cases hz : i ≠ 0 ∨ x ≠ 0 ∨ y ≠ 0
    · have hh := h x hx y hy hz
      have m1 : (1e-12 : ℝ) ≤ max 1 (t ^ 5)⁻¹ * 1e-12 := by
        have := le_max_left 1 (t ^ 5)⁻¹
        linarith [mul_le_mul_of_nonneg_right this (show (0:ℝ) ≤ 1e-12 by norm_num)]
      have m2 : (t ^ 5)⁻¹ * (1e-12 : ℝ) ≤ max 1 (t ^ 5)⁻¹ * 1e-12 :=
        mul_le_mul_of_nonneg_right (le_max_right _ _) (by norm_num)
      have hcw : c * w x y = 0 := by
        rw [hc, hw]
        rcases hz with h1 | h1
        · rw [if_neg h1, zero_mul]
        · show _ * (if x = 0 ∧ y = 0 then (1:ℝ) else 0) = 0
          have hxy : ¬ (x = 0 ∧ y = 0) := fun z => h1.elim (fun f => f z.1) fun f => f z.2
          simp only [if_neg hxy, mul_zero]
      rw [max_eq_left (m1.trans hh), hcw, add_zero, max_eq_left]
      have := mul_le_mul_of_nonneg_left (m2.trans hh) h5.le
      rwa [mul_inv_cancel_left₀ h5.ne'] at this
    · push Not at hz
      obtain ⟨rfl, rfl, rfl⟩ := hz
      have hcw : c * w 0 0 = (1 - t ^ 5) * 1e-12 := by rw [hc, hw]; simp
      have h0 : Spec.fitTensor s.params k1s[j] 0 0 (Spec.rowEntry 0).1 (Spec.rowEntry 0).2 = 0 := fitTensor_11_zero _ hf hk
      rw [hcw, h0, mul_zero, max_eq_right (by norm_num)]
      ring
  rw [e1, quad23_add, quad23_smul, quad23_smul]
  have hax : quad23 s.grid s.grid w = Spec.axisWeight s.grid := by rw [hw]; rfl
  rw [hax, hc]
  by_cases hi0 : i = 0
  · rw [if_pos hi0, if_pos hi0]
    field_simp
  · rw [if_neg hi0, if_neg hi0]
    field_simp
    ring

/-- C126: with the constructor's fixed grid (which contains zero) the predicted `ww` spectrum is not a physical quantity: at one
physical wavenumber `k1`, with one set of physical parameters, the prediction made in a unit `t` times smaller and converted back
grows at least like `t²`. -/
theorem C126_small_unit (s : OPS) (hf : ∀ t > 0, (Spec.inUnit t s.params).LifetimeFinite) (hg : s.grid.Pairwise (· < ·))
    (h2 : 2 ≤ s.grid.length) (h0 : (0:ℝ) ∈ s.grid) {k1 : ℝ} (hk : 0 < k1) :
    ∃ w > 0, ∀ t > 0, w * t ^ 2 ≤ Spec.cell (OPS.forward [k1 / t] (s.inUnit t)).1 2 0 / t ^ 2 := by
  obtain ⟨w, hw, hq⟩ := quad23_node hg h2 h0
  have hb : 0 < Spec.fitTensor s.params k1 0 0 2 2 := by
    rw [fitTensor_33 _ hk.ne']
    have hne : (⟨k1, 0, 0⟩ : K3).k1 ≠ 0 := hk.ne'
    have := energyOf_pos s.params.L_pos s.params.M_pos s.params.sp
      (Real.sqrt_pos.2 (kk0R_pos (b := (eddyLifetime s.params.hyp s.params.ty s.params.L s.params.T ⟨k1, 0, 0⟩).toReal) hne))
    have h1 := sR_pos hne
    have h2 := kkR_pos hne
    have := Real.pi_pos
    positivity
  refine ⟨w * (k1 * Spec.fitTensor s.params k1 0 0 2 2), by positivity, fun t ht => ?_⟩
  have hkt : k1 / t ≠ 0 := by positivity
  have hh := forward_cell_floor [k1 / t] (s.inUnit t) (by rw [inUnit_params]; exact hf t ht) (i := 2) (j := 0) (by omega) (by omega)
    (by simp) (by simpa using hkt)
  rw [hh, inUnit_params]
  simp only [List.getElem_cons_zero]
  have hge := hq (fun y z => max (Spec.fitTensor (Spec.inUnit t s.params) (k1 / t) y z (Spec.rowEntry 2).1 (Spec.rowEntry 2).2) 1e-12)
    fun y _ z _ => le_max_of_le_right (by norm_num)
  have he : Spec.fitTensor (Spec.inUnit t s.params) (k1 / t) 0 0 (Spec.rowEntry 2).1 (Spec.rowEntry 2).2 =
      t ^ 5 * Spec.fitTensor s.params k1 0 0 2 2 := by
    have := C126_tensor ht s.params k1 0 0 2 2
    simpa [Spec.rowEntry] using this
  have hm := mul_le_mul_of_nonneg_left (le_max_left (Spec.fitTensor (Spec.inUnit t s.params) (k1 / t) 0 0 (Spec.rowEntry 2).1
    (Spec.rowEntry 2).2) 1e-12) hw.le
  have h3 := mul_le_mul_of_nonneg_left (hm.trans hge) (show 0 ≤ k1 / t by positivity)
  rw [he] at h3
  rw [le_div_iff₀ (by positivity)]
  calc _ = k1 / t * (w * (t ^ 5 * Spec.fitTensor s.params k1 0 0 2 2)) := by field_simp
    _ ≤ _ := h3

theorem pow5_small {F : ℝ → ℝ → ℝ} (hF : Continuous fun q : ℝ × ℝ => F q.1 q.2) (y z : ℝ) :
    Tendsto (fun t : ℝ => t ^ 5 * F (t * y) (t * z)) (𝓝[>] 0) (𝓝 0) := by
  have h1 : Continuous fun t : ℝ => t ^ 5 * F (t * y) (t * z) :=
    (continuous_pow 5).mul (hF.comp (f := fun t : ℝ => (t * y, t * z)) (by fun_prop))
  have := h1.tendsto 0
  simp only [ne_eq, OfNat.ofNat_ne_zero, not_false_eq_true, zero_pow, zero_mul] at this
  exact this.mono_left nhdsWithin_le_nhds

/-- C126: in a large unit the absolute floor takes over: at one physical wavenumber the converted prediction of every row but
`uw` is eventually exactly the floor's contribution and grows like `t^{-3}` as the unit grows. -/
theorem C126_large_unit (s : OPS) (hc : s.params.LifetimeContinuous) (hf : ∀ t > 0, (Spec.inUnit t s.params).LifetimeFinite)
    {k1 : ℝ} (hk : 0 < k1) :
    ∃ δ > 0, ∀ t > 0, t < δ → ∀ i < 6, i ≠ 3 →
      Spec.cell (OPS.forward [k1 / t] (s.inUnit t)).1 i 0 / t ^ 2 = k1 * (1e-12 * gridWidth s.grid ^ 2) / t ^ 3 := by
  have key : ∀ y z : ℝ, ∀ i j : Fin 3, ∀ᶠ t : ℝ in 𝓝[>] 0,
      Spec.fitTensor (Spec.inUnit t s.params) (k1 / t) y z i j ≤ 1e-12 := by
    intro y z i j
    have h2 := pow5_small (F := fun y z => Spec.fitTensor s.params k1 y z i j) (fitTensor_cont s.params hc hk.ne' i j) y z
    filter_upwards [h2.eventually (ge_mem_nhds (show (0:ℝ) < 1e-12 by norm_num)), self_mem_nhdsWithin] with t h3 ht
    have ht : 0 < t := ht
    have := C126_tensor ht s.params k1 (t * y) (t * z) i j
    rw [mul_div_cancel_left₀ _ ht.ne', mul_div_cancel_left₀ _ ht.ne'] at this
    rw [this]
    exact h3
  have all : ∀ᶠ t : ℝ in 𝓝[>] 0, ∀ y ∈ s.grid, ∀ z ∈ s.grid, ∀ i j : Fin 3,
      Spec.fitTensor (Spec.inUnit t s.params) (k1 / t) y z i j ≤ 1e-12 := by
    have hfin : Set.Finite {x | x ∈ s.grid} := List.finite_toSet s.grid
    refine (hfin.eventually_all (p := fun y t => ∀ z ∈ s.grid, ∀ i j : Fin 3,
      Spec.fitTensor (Spec.inUnit t s.params) (k1 / t) y z i j ≤ 1e-12)).2 fun y _ => ?_
    refine (hfin.eventually_all (p := fun z t => ∀ i j : Fin 3,
      Spec.fitTensor (Spec.inUnit t s.params) (k1 / t) y z i j ≤ 1e-12)).2 fun z _ => ?_
    exact eventually_all.2 fun i => eventually_all.2 fun j => key y z i j
  obtain ⟨δ, hδ, hall⟩ := (mem_nhdsGT_iff_exists_Ioo_subset (α := ℝ)).1 all
  refine ⟨δ, hδ, fun t ht htd i hi h3 => ?_⟩
  have hkt : k1 / t ≠ 0 := by positivity
  have hh := forward_cell_floor [k1 / t] (s.inUnit t) (by rw [inUnit_params]; exact hf t ht) (i := i) (j := 0) hi h3
    (by simp) (by simpa using hkt)
  rw [hh, inUnit_params]
  simp only [List.getElem_cons_zero]
  rw [show (s.inUnit t).grid = s.grid from rfl]
  have hq : (quad23 s.grid s.grid fun y z =>
      max (Spec.fitTensor (Spec.inUnit t s.params) (k1 / t) y z (Spec.rowEntry i).1 (Spec.rowEntry i).2) 1e-12) =
      1e-12 * gridWidth s.grid ^ 2 := by
    rw [quad23_congr (f' := fun _ _ => (1e-12:ℝ)) fun y hy z hz => max_eq_right (hall ⟨ht, htd⟩ y hy z hz _ _)]
    unfold quad23
    rw [trapz_const, trapz_const]
    ring
  rw [hq]
  field_simp

/-! ### The default configuration -/

/-- C126: the default configuration (Mann lifetime, von Karman spectrum, the constructor's grid), one set of physical parameters
and one physical wavenumber: the `ww` prediction, converted back, tends to infinity both as the unit of length shrinks and as it
grows.  So what the fit compares with the data depends on the unit the data are written in. -/
theorem C126_mann (s : OPS) (hy : IsMannHyp s.hyp) (hk : s.kind = .mann) {p1 p2 : ℝ} (hp : p1 < p2) {n : ℕ} (hn : 2 ≤ n)
    (hg : s.grid = opsGrid p1 p2 n) {k1 : ℝ} (h1 : 0 < k1) :
    Tendsto (fun t : ℝ => Spec.cell (OPS.forward [k1 / t] (s.inUnit t)).1 2 0 / t ^ 2) atTop atTop ∧
    Tendsto (fun t : ℝ => Spec.cell (OPS.forward [k1 / t] (s.inUnit t)).1 2 0 / t ^ 2) (𝓝[>] 0) atTop := by
  have ht : s.params.ty = .mann := by simp [OPS.params, OPS.ty, OPS.initApprox, hk]
  have hcc : ∀ t : ℝ, (Spec.inUnit t s.params).LifetimeContinuous := fun t =>
    lifetimeContinuous_of _ (by rw [show (Spec.inUnit t s.params).ty = .mann from ht]; exact hy)
  have hc : s.params.LifetimeContinuous := lifetimeContinuous_of _ (by rw [ht]; exact hy)
  have hf : ∀ t > 0, (Spec.inUnit t s.params).LifetimeFinite := fun t _ => lifetimeFinite_of_continuous (hcc t)
  have hsort : s.grid.Pairwise (· < ·) := hg ▸ opsGrid_sorted hp n
  constructor
  · obtain ⟨w, hw, h⟩ := C126_small_unit s hf hsort (by rw [hg, opsGrid_length]; omega) (by rw [hg]; exact C24_grid p1 p2 n) h1
    refine tendsto_atTop_mono' _ ?_ ((tendsto_pow_atTop (α := ℝ) two_ne_zero).const_mul_atTop hw)
    filter_upwards [eventually_gt_atTop 0] with t ht
    exact h t ht
  · obtain ⟨δ, hδ, h⟩ := C126_large_unit s hc hf h1
    have hW : 0 < gridWidth s.grid := by
      unfold gridWidth
      rw [hg, (opsGrid_ends hn).1, (opsGrid_ends hn).2]
      have := Real.rpow_pos_of_pos (show (0:ℝ) < 10 by norm_num) p2
      linarith
    have hinv : Tendsto (fun t : ℝ => k1 * (1e-12 * gridWidth s.grid ^ 2) / t ^ 3) (𝓝[>] 0) atTop := by
      simp only [div_eq_mul_inv, ← inv_pow]
      exact ((tendsto_pow_atTop three_ne_zero).comp tendsto_inv_nhdsGT_zero).const_mul_atTop (by positivity)
    refine hinv.congr' ?_
    filter_upwards [Ioo_mem_nhdsGT hδ] with t ht
    exact (h t ht.1 ht.2 2 (by omega) (by omega)).symm

/-- `OPS.inUnit` is what the user gets by handing the same physical scales in the other unit to the calibration class. -/
theorem C126_scales (s : OPS) {L Γ σ t : ℝ} (hL : 0 < L) (hΓ : 0 < Γ) (hσ : 0 < σ) (ht : 0 < t) {s1 : OPS}
    (h1 : s.logDimensionalScales L Γ σ = .ok s1) :
    s.logDimensionalScales (t * L) Γ (t ^ (4 / 3 : ℝ) * σ) = .ok (s1.inUnit t) := by
  unfold OPS.logDimensionalScales at *
  rw [if_pos ⟨hL, hΓ, hσ⟩] at h1
  rw [if_pos ⟨by positivity, hΓ, by positivity⟩]
  obtain rfl := Except.ok.inj h1
  unfold OPS.inUnit
  simp only [Real.log_mul ht.ne' hL.ne', Real.log_mul (Real.rpow_pos_of_pos ht (4 / 3)).ne' hσ.ne', Real.log_rpow ht,
    add_comm]

/-- The tensor is proportional to the magnitude. -/
theorem fitTensor_magnitude (p : OPSParams) (m m' k1 y z : ℝ) (i j : Fin 3) :
    Spec.fitTensor { p with logM := m } k1 y z i j = Real.exp (m - m') * Spec.fitTensor { p with logM := m' } k1 y z i j := by
  have hE : ∀ (L : ℝ) (sp : SpectrumChoice) (x : ℝ), Spec.energyOf L (Real.exp m) sp x =
      Real.exp (m - m') * Spec.energyOf L (Real.exp m') sp x := by
    intro L sp x
    have : Real.exp m = Real.exp (m - m') * Real.exp m' := by rw [← Real.exp_add]; congr 1; ring
    cases sp with
    | vkLike =>
      show vkE _ _ _ = _ * vkE _ _ _
      unfold vkE; rw [this]; ring
    | learnable p q =>
      show Spec.learnE _ _ _ _ _ = _ * Spec.learnE _ _ _ _ _
      unfold Spec.learnE; rw [this]; ring
  unfold Spec.fitTensor
  simp only [OPSParams.M, OPSParams.L, OPSParams.T]
  generalize (eddyLifetime p.hyp p.ty (Real.exp p.logL) (Real.exp p.logT) ⟨k1, y, z⟩).toReal = b
  have hI : isoTensor (Spec.energyOf (Real.exp p.logL) (Real.exp m) p.sp) (initialWave ![k1, y, z] b) =
      Real.exp (m - m') • isoTensor (Spec.energyOf (Real.exp p.logL) (Real.exp m') p.sp) (initialWave ![k1, y, z] b) := by
    ext a c
    rw [Matrix.smul_apply, smul_eq_mul]
    unfold isoTensor
    rw [hE]
    ring
  unfold shearedTensor
  rw [hI, Matrix.mul_smul, Matrix.smul_mul]
  rfl

/-- The condition of `C126_grid` is met for all three rows by every object once the magnitude is large enough. -/
theorem C126_grid_case (s : OPS) (hf : s.params.LifetimeFinite) (t : ℝ) {k1 : ℝ} (hk : k1 ≠ 0) :
    ∃ m, ({ s with logM := m } : OPS).params.LifetimeFinite ∧
      ∀ i < 3, ∀ y ∈ s.grid, ∀ z ∈ s.grid, i ≠ 0 ∨ y ≠ 0 ∨ z ≠ 0 → max 1 (t ^ 5)⁻¹ * 1e-12 ≤
      Spec.fitTensor ({ s with logM := m } : OPS).params k1 y z (Spec.rowEntry i).1 (Spec.rowEntry i).2 := by
  have hm : ∀ m : ℝ, ({ s with logM := m } : OPS).params = { s.params with logM := m } := by
    intro m
    unfold OPS.params OPS.initApprox OPS.ty
    cases s.kind <;> rfl
  have key : ∀ (i : ℕ) (y z : ℝ), ∀ᶠ m : ℝ in atTop, i < 3 → i ≠ 0 ∨ y ≠ 0 ∨ z ≠ 0 →
      max 1 (t ^ 5)⁻¹ * 1e-12 ≤ Spec.fitTensor { s.params with logM := m } k1 y z (Spec.rowEntry i).1 (Spec.rowEntry i).2 := by
    intro i y z
    by_cases hc : i < 3 ∧ (i ≠ 0 ∨ y ≠ 0 ∨ z ≠ 0)
    swap
    · exact Eventually.of_forall fun m h1 h2 => absurd ⟨h1, h2⟩ hc
    have hpos : 0 < Spec.fitTensor { s.params with logM := 0 } k1 y z (Spec.rowEntry i).1 (Spec.rowEntry i).2 :=
      fitTensor_diag_pos { s.params with logM := 0 } hf hk hc.1 hc.2
    have ht := (Real.tendsto_exp_atTop.atTop_mul_const hpos).eventually (eventually_ge_atTop (max 1 (t ^ 5)⁻¹ * 1e-12))
    filter_upwards [ht] with m h _ _
    rw [fitTensor_magnitude _ _ 0, sub_zero]
    exact h
  have hfin : Set.Finite {x | x ∈ s.grid} := List.finite_toSet s.grid
  have hfi : Set.Finite {x : ℕ | x < 3} := Set.finite_lt_nat 3
  have all : ∀ᶠ m : ℝ in atTop, ∀ i ∈ {x : ℕ | x < 3}, ∀ y ∈ {x | x ∈ s.grid}, ∀ z ∈ {x | x ∈ s.grid}, i < 3 → i ≠ 0 ∨ y ≠ 0 ∨ z ≠ 0 →
      max 1 (t ^ 5)⁻¹ * 1e-12 ≤ Spec.fitTensor { s.params with logM := m } k1 y z (Spec.rowEntry i).1 (Spec.rowEntry i).2 :=
    hfi.eventually_all.2 fun i _ => hfin.eventually_all.2 fun y _ => hfin.eventually_all.2 fun z _ => key i y z
  obtain ⟨m, h⟩ := all.exists
  refine ⟨m, ?_, fun i hi y hy z hz => ?_⟩
  · rw [hm]; exact hf
  · rw [hm]; exact h i hi y hy z hz hi

/-- The hypotheses of `C126_mann` and `C126_scales` are met by the default object. -/
example : ∃ hyp s s1, OPS.init hyp .mann .vkLike 1 1 1 (-3) 3 100 none = .ok s ∧ s.logDimensionalScales 70 3.9 1 = .ok s1 ∧
    IsMannHyp s1.hyp ∧ s1.kind = .mann ∧ s1.grid = opsGrid (-3) 3 100 := by
  obtain ⟨hyp, h⟩ := exists_isMannHyp
  exact ⟨hyp, _, _, if_pos ⟨one_pos, one_pos, one_pos⟩, if_pos ⟨by norm_num, by norm_num, one_pos⟩, h, rfl, rfl⟩

end
end Verif
