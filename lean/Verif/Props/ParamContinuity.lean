import Verif.Lemmas.ParamCont
import Verif.Props.ParamVector
import Mathlib.Topology.Connected.Separation
import Mathlib.Topology.Separation.Connected
import Mathlib.Analysis.SpecialFunctions.Trigonometric.Arctan
import Mathlib.Data.Fintype.Pi
import Mathlib.Data.Fintype.Prod
import Mathlib.Data.Sign.Basic

/-!
# Dependence of the predictions on the parameters: C102
-/

namespace Verif
open Fl Filter Topology Verif.Spec

noncomputable section

/-- Entry `(i, j)` of a returned table. -/
def Spec.cell (r : Except PyErr (List (List Fl))) (i j : ℕ) : ℝ := match r with
  | .ok y => ((y.getD i []).getD j nan).toReal
  | .error _ => 0

/-- Tensor entry behind row `i` of the predictions: uu, vv, ww, uw, vw, uv. -/
def Spec.rowEntry (i : ℕ) : Fin 3 × Fin 3 := [(0, 0), (1, 1), (2, 2), (0, 2), (1, 2), (0, 1)].getD i (0, 0)

theorem forward_cell (k1s : List ℝ) (s : OPS) {i j : ℕ} (hi : i < 6) (hj : j < k1s.length) :
    Spec.cell (OPS.forward k1s s).1 i j =
      (fin k1s[j] * quad23 s.grid s.grid fun k2 k3 => (phiSelectors[i]'hi) (opsPhi s.params ⟨k1s[j], k2, k3⟩)).toReal := by
  rw [forward_eq]
  unfold Spec.cell
  have hi' : i < phiSelectors.length := hi
  simp only [List.getD_eq_getElem?_getD, List.getElem?_map, List.getElem?_eq_getElem hi', List.getElem?_eq_getElem hj,
    Option.map_some, Option.getD_some]
  rfl

/-- The five rows other than uw: trapezoid sums of the tensor cut below at `1e-12`. -/
theorem forward_cell_floor (k1s : List ℝ) (s : OPS) (hp : s.params.LifetimeFinite) {i j : ℕ} (hi : i < 6) (h3 : i ≠ 3)
    (hj : j < k1s.length) (hk : k1s[j] ≠ 0) :
    Spec.cell (OPS.forward k1s s).1 i j = k1s[j] * quad23 s.grid s.grid fun k2 k3 =>
      max (Spec.fitTensor s.params k1s[j] k2 k3 (Spec.rowEntry i).1 (Spec.rowEntry i).2) 1e-12 := by
  rw [forward_cell k1s s hi hj]
  have : (quad23 s.grid s.grid fun k2 k3 => (phiSelectors[i]'hi) (opsPhi s.params ⟨k1s[j], k2, k3⟩)) =
      fin (quad23 s.grid s.grid fun k2 k3 =>
        max (Spec.fitTensor s.params k1s[j] k2 k3 (Spec.rowEntry i).1 (Spec.rowEntry i).2) 1e-12) := by
    refine quad23_fin fun y _ z _ => ?_
    obtain ⟨w, -, e⟩ := opsPhi_spec s.params hp hk y z
    rw [e]
    obtain rfl | rfl | rfl | rfl | rfl : i = 0 ∨ i = 1 ∨ i = 2 ∨ i = 4 ∨ i = 5 := by omega
    all_goals rfl
  rw [this, fin_mul_fin, toReal_fin]

/-- **C102** The predicted spectra uu, vv, ww, vw, uv are continuous functions of the parameter vector, for every lifetime
model, every energy spectrum and every wavenumber other than zero, on every set of parameters at which the lifetime model is
sound (for the network: it sends no non-zero wavevector to zero). -/
theorem C102_continuous (s : OPS) (ln : Bool) {n : ℕ} (U : Set (Fin n → ℝ))
    (hs : ∀ θ ∈ U, (s.setVec ln (List.ofFn θ)).Sound) (k1s : List ℝ) {i j : ℕ} (hi : i < 6) (h3 : i ≠ 3)
    (hj : j < k1s.length) (hk : k1s[j] ≠ 0) :
    ContinuousOn (fun θ => Spec.cell (OPS.forward k1s (s.setVec ln (List.ofFn θ))).1 i j) U := by
  rw [continuousOn_iff_continuous_restrict]
  have hv : ContList fun θ : U => List.ofFn θ.1 := ContList.ofFn.comp continuous_subtype_val
  have e : (U.domRestrict fun θ => Spec.cell (OPS.forward k1s (s.setVec ln (List.ofFn θ))).1 i j) = fun θ : U =>
      k1s[j] * quad23 s.grid s.grid fun k2 k3 =>
        max (Spec.fitTensor (s.setVec ln (List.ofFn θ.1)).params k1s[j] k2 k3 (Spec.rowEntry i).1 (Spec.rowEntry i).2) 1e-12 := by
    funext θ
    exact forward_cell_floor k1s _ (hs θ.1 θ.2).finite hi h3 hj hk
  rw [e]
  exact continuous_const.mul (cont_quad23 fun y _ z _ =>
    (fitTensor_param s ln hv (fun θ => hs θ.1 θ.2) hk y z _ _).max continuous_const)

/-! ### The cross spectrum uw -/

/-- Soft threshold. -/
def softCut (eps x : ℝ) : ℝ := max (x - eps) 0 - max (-x - eps) 0

theorem floorEpsSigned_split {eps : ℝ} (he : 0 < eps) (x : ℝ) :
    floorEpsSigned eps (fin x) = fin (softCut eps x + eps * (SignType.sign x : ℝ)) := by
  unfold floorEpsSigned softCut
  by_cases h : |x| < eps
  · have h' := abs_lt.1 h
    have e1 : max (x - eps) 0 = 0 := max_eq_right (by linarith [h'.2])
    have e2 : max (-x - eps) 0 = 0 := max_eq_right (by linarith [h'.1])
    simp only [abs_fin, lt_fin, h, if_true, Fl.sign, e1, e2]
    rcases lt_trichotomy x 0 with hx | hx | hx
    · rw [if_neg (not_lt.2 hx.le), if_pos hx, sign_neg hx, fin_mul_fin]; simp
    · subst hx; simp [fin_mul_fin]
    · rw [if_pos hx, sign_pos hx, fin_mul_fin]; simp
  · simp only [abs_fin, lt_fin, h, if_false]
    congr 1
    rcases le_or_gt 0 x with hx | hx
    · rw [abs_of_nonneg hx, not_lt] at h
      rw [max_eq_left (by linarith), max_eq_right (by linarith), sign_pos (by linarith)]; simp
    · rw [abs_of_neg hx, not_lt] at h
      rw [max_eq_right (by linarith), max_eq_left (by linarith), sign_neg hx]; simp

theorem opsPhi_cross (p : OPSParams) (hp : p.LifetimeFinite) {k1 : ℝ} (hk : k1 ≠ 0) (k2 k3 : ℝ) :
    (opsPhi p ⟨k1, k2, k3⟩).p13 = fin (softCut 1e-12 (Spec.fitTensor p k1 k2 k3 0 2) +
      1e-12 * (SignType.sign (Spec.fitTensor p k1 k2 k3 0 2) : ℝ)) := by
  obtain ⟨b, hb⟩ := hp ⟨k1, k2, k3⟩ hk
  have h4 : (4 * Real.pi) ≠ 0 := by positivity
  unfold opsPhi
  simp only [hb, energyE0_spec p.L_pos (kk0R_pos (k := ⟨k1, k2, k3⟩) (b := b) hk), fin_div_fin _ h4]
  rw [phiRaw_sheared (k := ⟨k1, k2, k3⟩) hk]
  have e : shearedTensor (Spec.energyOf p.L p.M p.sp) (K3.vec ⟨k1, k2, k3⟩) b 0 2 = Spec.fitTensor p k1 k2 k3 0 2 := by
    unfold Spec.fitTensor
    rw [hb, toReal_fin]; rfl
  simp only [phiFloor, e]
  exact floorEpsSigned_split (by norm_num) _

/-- The argument of a point of the upper half plane. -/
theorem arg_upper (x : ℝ) {y : ℝ} (hy : 0 < y) : Complex.arg ⟨x, y⟩ = Real.pi / 2 - Real.arctan (x / y) := by
  set u := x / y with hu
  have h1 := Real.neg_pi_div_two_lt_arctan u
  have h2 := Real.arctan_lt_pi_div_two u
  have hpos : 0 < 1 + u ^ 2 := by positivity
  have hs := Real.sqrt_pos.2 hpos
  have e : (⟨x, y⟩ : ℂ) = ((y * Real.sqrt (1 + u ^ 2) : ℝ) : ℂ) *
      (Complex.cos ((Real.pi / 2 - Real.arctan u : ℝ) : ℂ) + Complex.sin ((Real.pi / 2 - Real.arctan u : ℝ) : ℂ) * Complex.I) := by
    rw [← Complex.ofReal_cos, ← Complex.ofReal_sin, Real.cos_pi_div_two_sub, Real.sin_pi_div_two_sub, Real.sin_arctan,
      Real.cos_arctan]
    apply Complex.ext
    · simp [-Complex.ofReal_mul]
      field_simp
      rw [hu]; field_simp
    · simp [-Complex.ofReal_mul]
      field_simp
  rw [e, Complex.arg_mul_cos_add_sin_mul_I (mul_pos hy hs) ⟨by linarith [Real.pi_pos], by linarith⟩]

/-- Sign-determining factor of the uw entry. -/
def uwBracket (k : K3) (b : ℝ) : ℝ :=
  k.k1 * k.k3 / kkR k + k.k2 ^ 2 / (k.k1 * Real.sqrt (sR k)) * atR k b

theorem sheared_uw {k : K3} (h : k.k1 ≠ 0) (E : ℝ → ℝ) (b : ℝ) :
    shearedTensor E k.vec b 0 2 = -(E (Real.sqrt (kk0R k b)) / (4 * Real.pi) / kkR k) * uwBracket k b := by
  have hk0 := (kk0R_pos (b := b) h).ne'
  have hk := (kkR_pos h).ne'
  have hs := sR_pos h
  have hq := Real.sqrt_pos.2 hs
  have e32 : (sR k) ^ (3 / 2 : ℝ) = sR k * Real.sqrt (sR k) := by
    rw [Real.sqrt_eq_rpow, show (3 / 2 : ℝ) = 1 + 1 / 2 by norm_num, Real.rpow_add hs, Real.rpow_one]
  have key : -k.k1 * k30R k b + sR k * z1R k b = -kk0R k b * uwBracket k b := by
    unfold z1R c2R uwBracket
    rw [e32]
    have e1 : sR k * c1R k b - k.k1 * k30R k b = -kk0R k b * (k.k1 * k.k3 / kkR k) := by
      unfold c1R
      have hs' := hs.ne'
      field_simp
      unfold kk0R kkR k30R
      ring
    have e2 : sR k * (k.k2 / k.k1 * (k.k2 * kk0R k b / (sR k * Real.sqrt (sR k)) * atR k b)) =
        kk0R k b * (k.k2 ^ 2 / (k.k1 * Real.sqrt (sR k)) * atR k b) := by
      have hs' := hs.ne'
      have hq' := hq.ne'
      field_simp
    linear_combination e1 - e2
  have hp := phiRaw_sheared (k := k) h b E
  rw [phiRaw_fin h] at hp
  have h13 := (Phi6.mk.injEq _ _ _ _ _ _ _ _ _ _ _ _).mp hp
  have h13 := h13.2.2.2.1
  rw [Fl.fin.injEq] at h13
  rw [← h13, key]
  field_simp

theorem atR_arctan {k : K3} (h : 0 < k.k1) {b : ℝ} (hb : 0 < b) :
    atR k b = Real.pi / 2 - Real.arctan (kkR k / (k.k1 * Real.sqrt (sR k)) / b + k.k3 / Real.sqrt (sR k)) := by
  have hs := Real.sqrt_pos.2 (sR_pos (k := k) h.ne')
  unfold atR
  rw [arg_upper _ (by positivity)]
  congr 2
  have e : kk0R k b - k30R k b * k.k1 * b = kkR k + b * k.k1 * k.k3 := by
    unfold kk0R kkR k30R; ring
  rw [e]
  field_simp

theorem uwBracket_mono {k : K3} (h : 0 < k.k1) {b c : ℝ} (hb : 0 < b) (hbc : b ≤ c) : uwBracket k b ≤ uwBracket k c := by
  have hs := Real.sqrt_pos.2 (sR_pos (k := k) h.ne')
  have hk := kkR_pos (k := k) h.ne'
  unfold uwBracket
  rw [atR_arctan h hb, atR_arctan h (hb.trans_le hbc)]
  refine add_le_add le_rfl (mul_le_mul_of_nonneg_left ?_ (by positivity))
  refine sub_le_sub_left (Real.arctan_mono ?_) _
  refine add_le_add ?_ le_rfl
  exact div_le_div_of_nonneg_left (by positivity) hb hbc

/-- At a corner of the mesh the factor is negative for short lifetimes and positive for long ones. -/
theorem uwBracket_corner {k1 K : ℝ} (h : 0 < k1) (hK : k1 ≤ K) :
    (∃ b, 0 < b ∧ uwBracket ⟨k1, -K, -K⟩ b < 0) ∧ ∃ b, 0 < b ∧ 0 < uwBracket ⟨k1, -K, -K⟩ b := by
  have hK0 : 0 < K := h.trans_le hK
  set k : K3 := ⟨k1, -K, -K⟩ with hkdef
  have hk1 : 0 < k.k1 := h
  have hs := sR_pos (k := k) hk1.ne'
  have hq := Real.sqrt_pos.2 hs
  have hkk := kkR_pos (k := k) hk1.ne'
  have hval : ∀ b, 0 < b → uwBracket k b = -(k1 * K / kkR k) + K ^ 2 / (k1 * Real.sqrt (sR k)) *
      (Real.pi / 2 - Real.arctan (kkR k / (k1 * Real.sqrt (sR k)) / b + -K / Real.sqrt (sR k))) := by
    intro b hb
    unfold uwBracket
    rw [atR_arctan hk1 hb]
    simp only [hkdef]
    ring
  constructor
  · have hlim : Tendsto (fun b : ℝ => -(k1 * K / kkR k) + K ^ 2 / (k1 * Real.sqrt (sR k)) *
        (Real.pi / 2 - Real.arctan (kkR k / (k1 * Real.sqrt (sR k)) / b + -K / Real.sqrt (sR k)))) (𝓝[>] 0)
        (𝓝 (-(k1 * K / kkR k) + K ^ 2 / (k1 * Real.sqrt (sR k)) * (Real.pi / 2 - Real.pi / 2))) := by
      refine tendsto_const_nhds.add (tendsto_const_nhds.mul (tendsto_const_nhds.sub ?_))
      refine (Real.tendsto_arctan_atTop.mono_right nhdsWithin_le_nhds).comp ?_
      refine tendsto_atTop_add_const_right _ _ ?_
      simp only [div_eq_mul_inv _ (_ : ℝ)]
      exact Tendsto.const_mul_atTop (by positivity) tendsto_inv_nhdsGT_zero
    have hneg : -(k1 * K / kkR k) + K ^ 2 / (k1 * Real.sqrt (sR k)) * (Real.pi / 2 - Real.pi / 2) < 0 := by
      have : 0 < k1 * K / kkR k := by positivity
      rw [sub_self, mul_zero]; linarith
    obtain ⟨b, h1, h2⟩ := ((hlim.eventually (gt_mem_nhds hneg)).and self_mem_nhdsWithin).exists
    exact ⟨b, h2, by rw [hval b h2]; exact h1⟩
  · set b := kkR k / (k1 * K) with hb
    have hb0 : 0 < b := by positivity
    refine ⟨b, hb0, ?_⟩
    rw [hval b hb0]
    have e : kkR k / (k1 * Real.sqrt (sR k)) / b + -K / Real.sqrt (sR k) = 0 := by
      rw [hb]; field_simp; ring
    rw [e, Real.arctan_zero, sub_zero]
    have es : sR k = k1 * k1 + K * K := by simp [sR, hkdef]
    have ek : kkR k = k1 * k1 + 2 * (K * K) := by simp [kkR, hkdef]; ring
    have hle : Real.sqrt (sR k) ≤ 2 * K := by
      rw [Real.sqrt_le_left (by positivity), es]; nlinarith
    have h1 : k1 * K / kkR k < k1 / (2 * K) := by
      rw [ek, div_lt_div_iff₀ (by positivity) (by positivity)]; nlinarith [mul_pos h h, mul_pos (mul_pos h h) h]
    have h2 : K / (2 * k1) ≤ K ^ 2 / (k1 * Real.sqrt (sR k)) := by
      rw [div_le_div_iff₀ (by positivity) (by positivity)]
      nlinarith [mul_le_mul_of_nonneg_left hle (mul_pos h hK0).le]
    have h3 : k1 / (2 * K) ≤ K / (2 * k1) := by
      rw [div_le_div_iff₀ (by positivity) (by positivity)]; nlinarith
    have h4 : 0 < K / (2 * k1) := by positivity
    have hpi : 1 ≤ Real.pi / 2 := by linarith [Real.two_le_pi]
    have h5 : K / (2 * k1) * 1 ≤ K ^ 2 / (k1 * Real.sqrt (sR k)) * (Real.pi / 2) :=
      mul_le_mul h2 hpi (by norm_num) (h4.trans_le h2).le
    linarith

theorem trapz_le {g : List ℝ} (hg : g.Pairwise (· ≤ ·)) {f f' : ℝ → ℝ} (h : ∀ x ∈ g, f x ≤ f' x) :
    trapz g (g.map f) ≤ trapz g (g.map f') := by
  have := trapz_nonneg hg (f := fun x => f' x - f x) fun x hx => sub_nonneg.2 (h x hx)
  rw [← trapz_sub] at this
  linarith

theorem trapz_lt_head {a c : ℝ} {l : List ℝ} (hg : (a :: c :: l).Pairwise (· < ·)) {f f' : ℝ → ℝ}
    (h : ∀ x ∈ a :: c :: l, f x ≤ f' x) (ha : f a < f' a) :
    trapz (a :: c :: l) ((a :: c :: l).map f) < trapz (a :: c :: l) ((a :: c :: l).map f') := by
  rw [trapz_cons2, trapz_cons2]
  have hac : a < c := (List.pairwise_cons.1 hg).1 c (by simp)
  have h1 := trapz_le ((List.pairwise_cons.1 hg).2.imp le_of_lt) (f := f) (f' := f') fun x hx => h x (by simp [hx])
  have h2 := h c (by simp)
  simp only [smul_eq_mul]
  have : (c - a) / 2 * (f a + f c) < (c - a) / 2 * (f' a + f' c) := mul_lt_mul_of_pos_left (by linarith) (by linarith)
  linarith

theorem quad23_lt_head {a c : ℝ} {l : List ℝ} (hg : (a :: c :: l).Pairwise (· < ·)) {f f' : ℝ → ℝ → ℝ}
    (h : ∀ x ∈ a :: c :: l, ∀ y ∈ a :: c :: l, f x y ≤ f' x y) (ha : f a a < f' a a) :
    quad23 (a :: c :: l) (a :: c :: l) f < quad23 (a :: c :: l) (a :: c :: l) f' := by
  unfold quad23
  exact trapz_lt_head (f := fun x => trapz (a :: c :: l) ((a :: c :: l).map (f x)))
    (f' := fun x => trapz (a :: c :: l) ((a :: c :: l).map (f' x))) hg
    (fun x hx => trapz_le (hg.imp le_of_lt) (h x hx)) (trapz_lt_head hg (h a (by simp)) ha)

theorem quad23_sub (g2 g3 : List ℝ) (f f' : ℝ → ℝ → ℝ) :
    quad23 g2 g3 (fun x y => f x y - f' x y) = quad23 g2 g3 f - quad23 g2 g3 f' := by
  unfold quad23
  rw [trapz_sub]
  exact trapz_congr fun x _ => (trapz_sub _ _ _).symm

/-- Quadratures of signs take finitely many values. -/
theorem quad23_sign_finite {X : Type} (g : List ℝ) (f : X → ℝ → ℝ → ℝ) :
    (Set.range fun x => quad23 g g fun y z => (SignType.sign (f x y z) : ℝ)).Finite := by
  classical
  set Φ : ({y // y ∈ g} × {z // z ∈ g} → SignType) → ℝ := fun P =>
    quad23 g g fun y z => if h : y ∈ g ∧ z ∈ g then ((P (⟨y, h.1⟩, ⟨z, h.2⟩) : SignType) : ℝ) else 0 with hΦ
  haveI : Finite {y // y ∈ g} := List.finite_toSet g
  refine (Set.finite_range Φ).subset ?_
  rintro _ ⟨x, rfl⟩
  refine ⟨fun q => SignType.sign (f x q.1.1 q.2.1), ?_⟩
  simp only [hΦ]
  exact quad23_congr fun y hy z hz => by simp [hy, hz]

theorem setVec_logT (ln : Bool) (s : OPS) (t : ℝ) :
    s.setVec ln ((s.paramVec ln).set 1 t) = { s with logT := t } := by
  have h0 := setVec_paramVec ln s
  have e : (s.paramVec ln).set 1 t = s.logL :: t :: (s.paramVec ln).drop 2 := rfl
  have e' : s.paramVec ln = s.logL :: s.logT :: (s.paramVec ln).drop 2 := rfl
  have h3 : 2 ≤ s.headLen := by unfold OPS.headLen; cases s.sp <;> simp
  obtain ⟨m, hm⟩ : ∃ m, s.headLen = m + 2 := ⟨s.headLen - 2, by omega⟩
  rw [e]
  rw [e'] at h0
  unfold OPS.setVec at h0 ⊢
  simp only [hm, List.drop_succ_cons, List.getD_cons_zero, List.getD_cons_succ] at h0 ⊢
  exact congrArg (fun o : OPS => { o with logT := t }) h0

theorem eddyLifetime_scale (hyp : ℝ → ℝ) (ty : EddyType) (L T : ℝ) (k : K3) {g : ℝ}
    (h : eddyLifetime hyp ty L 1 k = fin g) : eddyLifetime hyp ty L T k = fin (T * g) := by
  obtain ⟨τ, hτ⟩ : ∃ τ, ∀ T, eddyLifetime hyp ty L T k = fin T * τ := ⟨_, fun T => rfl⟩
  rw [hτ] at h ⊢
  have h1 : τ = fin g := by
    rcases τ with _ | _ | _ | x
    · cases (show nan = fin g from h)
    · exact absurd (h.symm.trans (fin_mul_pinf 1)).symm (infMul_ne_fin _ _)
    · exact absurd (h.symm.trans (fin_mul_ninf 1)).symm (infMul_ne_fin _ _)
    · rw [fin_mul_fin, one_mul] at h; exact h
  rw [h1, fin_mul_fin]

/-- **C102** The cross spectrum uw is not: for every sound lifetime model, every library grid with at least two points per
side and every wavenumber covered by it, the predicted uw is not a continuous function of the logarithm of the time scale (the
floor of the entry keeps its sign, so the value jumps whenever an entry of the mesh changes sign). -/
theorem C102_cross_jump (s : OPS) (hs : s.Sound) {p1 p2 : ℝ} (hp : p1 < p2) {n : ℕ} (hn : 2 ≤ n) (hg : s.grid = opsGrid p1 p2 n)
    {k1 : ℝ} (h0 : 0 < k1) (h1 : k1 ≤ 10 ^ p2) :
    ¬ Continuous fun t : ℝ => Spec.cell (OPS.forward [k1] { s with logT := t }).1 3 0 := by
  intro hc
  set o : ℝ → OPS := fun t => { s with logT := t } with ho
  have hv : ContList fun t : ℝ => (s.paramVec true).set 1 t := by
    refine ⟨(fun _ => s.logL) :: (fun t => t) :: ((s.paramVec true).drop 2).map fun x _ => x, ?_, fun t => ?_⟩
    · intro f hf
      simp only [List.mem_cons, List.mem_map] at hf
      rcases hf with rfl | rfl | ⟨x, -, rfl⟩
      · exact continuous_const
      · exact continuous_id
      · exact continuous_const
    · have e : (s.paramVec true).set 1 t = s.logL :: t :: (s.paramVec true).drop 2 := rfl
      simp only [e, List.map_cons, List.map_map, Function.comp_def, List.map_id']
  have ho' : ∀ t, s.setVec true ((s.paramVec true).set 1 t) = o t := fun t => setVec_logT true s t
  have hso : ∀ t, (o t).Sound := fun t => hs
  have hfin : ∀ t, (o t).params.LifetimeFinite := fun t => (hso t).finite
  -- the tensor entry on the mesh
  set f : ℝ → ℝ → ℝ → ℝ := fun t k2 k3 => Spec.fitTensor (o t).params k1 k2 k3 0 2 with hf
  have hfc : ∀ k2 k3, Continuous fun t => f t k2 k3 := by
    intro k2 k3
    have := fitTensor_param s true hv (fun t => by rw [ho']; exact hso t) h0.ne' k2 k3 0 2
    simpa only [ho'] using this
  -- its sign
  have hsign : ∀ k2 k3, ∃ g, 0 < g ∧ ∀ t, SignType.sign (f t k2 k3) =
      -SignType.sign (uwBracket ⟨k1, k2, k3⟩ (Real.exp t * g)) := by
    intro k2 k3
    obtain ⟨b, -, hb⟩ := lifetime_param s true hv (fun t => by rw [ho']; exact hso t) h0.ne' k2 k3
    simp only [ho'] at hb
    refine ⟨b 0, (hb 0).1, fun t => ?_⟩
    have e0 : eddyLifetime (o t).params.hyp (o t).params.ty (o t).params.L 1 ⟨k1, k2, k3⟩ = fin (b 0) := by
      rw [← (hb 0).2]
      have : (o 0).params.T = 1 := Real.exp_zero
      rw [this]; rfl
    have et := eddyLifetime_scale _ _ _ (o t).params.T _ e0
    have eT : (o t).params.T = Real.exp t := rfl
    simp only [hf, Spec.fitTensor]
    rw [et, toReal_fin, eT]
    have hE : 0 < Spec.energyOf (o t).params.L (o t).params.M (o t).params.sp
        (Real.sqrt (kk0R ⟨k1, k2, k3⟩ (Real.exp t * b 0))) := by
      obtain ⟨e, he, h⟩ := energyE0_pos (o t).params.sp (o t).params.L_pos (k := ⟨k1, k2, k3⟩) h0.ne' (Real.exp t * b 0)
      have h := h (o t).params.M
      rw [energyE0_spec (o t).params.L_pos (kk0R_pos (k := ⟨k1, k2, k3⟩) h0.ne')] at h
      rw [Fl.fin.inj h]
      exact mul_pos (o t).params.M_pos he
    rw [show (![k1, k2, k3] : Fin 3 → ℝ) = K3.vec ⟨k1, k2, k3⟩ from rfl, sheared_uw (k := ⟨k1, k2, k3⟩) h0.ne', neg_mul,
      Left.sign_neg, sign_mul, sign_pos (by
        exact div_pos (div_pos hE (by positivity)) (kkR_pos (k := ⟨k1, k2, k3⟩) h0.ne')), one_mul]
  have hanti : ∀ k2 k3, ∀ t t', t ≤ t' → (SignType.sign (f t' k2 k3) : ℝ) ≤ SignType.sign (f t k2 k3) := by
    intro k2 k3 t t' htt
    obtain ⟨g, hg0, hg1⟩ := hsign k2 k3
    rw [hg1, hg1]
    have hm : uwBracket ⟨k1, k2, k3⟩ (Real.exp t * g) ≤ uwBracket ⟨k1, k2, k3⟩ (Real.exp t' * g) :=
      uwBracket_mono (k := ⟨k1, k2, k3⟩) h0 (by positivity)
        (mul_le_mul_of_nonneg_right (Real.exp_le_exp.2 htt) hg0.le)
    have := SignType.sign.monotone hm
    revert this
    generalize SignType.sign (uwBracket ⟨k1, k2, k3⟩ (Real.exp t * g)) = a
    generalize SignType.sign (uwBracket ⟨k1, k2, k3⟩ (Real.exp t' * g)) = b
    revert a b
    intro a b
    cases a <;> cases b <;> simp
  -- the quadrature of the signs is continuous
  set S : ℝ → ℝ := fun t => quad23 s.grid s.grid fun k2 k3 => (SignType.sign (f t k2 k3) : ℝ) with hS
  have hval : ∀ t, Spec.cell (OPS.forward [k1] (o t)).1 3 0 = k1 * quad23 s.grid s.grid fun k2 k3 =>
      softCut 1e-12 (f t k2 k3) + 1e-12 * (SignType.sign (f t k2 k3) : ℝ) := by
    intro t
    refine (forward_cell [k1] (o t) (i := 3) (j := 0) (by norm_num) (by simp)).trans ?_
    have : (quad23 (o t).grid (o t).grid fun k2 k3 => (phiSelectors[3]'(by decide)) (opsPhi (o t).params ⟨[k1][0], k2, k3⟩)) =
        fin (quad23 s.grid s.grid fun k2 k3 => softCut 1e-12 (f t k2 k3) + 1e-12 * (SignType.sign (f t k2 k3) : ℝ)) :=
      quad23_fin fun y _ z _ => opsPhi_cross (o t).params (hfin t) h0.ne' y z
    refine (congrArg (fun q => (fin k1 * q).toReal) this).trans ?_
    simp only [fin_mul_fin, toReal_fin]
  have hScont : Continuous S := by
    have e : S = fun t => 1e12 * (Spec.cell (OPS.forward [k1] (o t)).1 3 0 / k1 -
        quad23 s.grid s.grid fun k2 k3 => softCut 1e-12 (f t k2 k3)) := by
      funext t
      rw [hval, mul_div_cancel_left₀ _ h0.ne', ← quad23_sub]
      simp only [add_sub_cancel_left]
      rw [quad23_smul]
      simp only [hS]
      ring
    rw [e]
    refine continuous_const.mul ((hc.div_const _).sub (cont_quad23 fun y _ z _ => ?_))
    unfold softCut
    have := hfc y z
    fun_prop
  -- hence constant
  have hconst : ∀ t t', S t = S t' := by
    intro t t'
    by_contra hne
    exact (isPreconnected_range hScont).infinite_of_nontrivial ⟨S t, ⟨t, rfl⟩, S t', ⟨t', rfl⟩, hne⟩
      (quad23_sign_finite s.grid f)
  -- but the corner of the mesh changes sign
  obtain ⟨a, c, l, hl⟩ : ∃ a c l, s.grid = a :: c :: l := by
    have := opsGrid_length p1 p2 n
    rw [hg]
    match opsGrid p1 p2 n, this with
    | a :: c :: l, _ => exact ⟨a, c, l, rfl⟩
    | [a], h => simp at h; omega
    | [], h => simp at h
  have ha : a = -(10:ℝ) ^ p2 := by
    have := (opsGrid_ends (p1 := p1) (p2 := p2) hn).1
    rw [← hg, hl] at this
    exact this
  have hsort : (a :: c :: l).Pairwise (· < ·) := by rw [← hl, hg]; exact opsGrid_sorted hp n
  obtain ⟨g, hg0, hg1⟩ := hsign a a
  obtain ⟨⟨b, hb, hbn⟩, ⟨b', hb', hbp⟩⟩ := uwBracket_corner h0 h1
  rw [← ha] at hbn hbp
  have e : ∀ b, 0 < b → Real.exp (Real.log (b / g)) * g = b := fun b hb => by
    rw [Real.exp_log (div_pos hb hg0)]; field_simp
  have s1 : SignType.sign (f (Real.log (b / g)) a a) = 1 := by rw [hg1, e b hb, sign_neg hbn]; rfl
  have s2 : SignType.sign (f (Real.log (b' / g)) a a) = -1 := by rw [hg1, e b' hb', sign_pos hbp]
  have hlt : Real.log (b / g) ≤ Real.log (b' / g) := by
    by_contra hcon
    have := hanti a a _ _ (not_le.1 hcon).le
    rw [s1, s2] at this
    norm_num at this
  have : S (Real.log (b' / g)) < S (Real.log (b / g)) := by
    simp only [hS, hl]
    exact quad23_lt_head hsort (fun y _ z _ => hanti y z _ _ hlt) (by rw [s1, s2]; norm_num)
  exact absurd (hconst _ _) this.ne

end
end Verif
