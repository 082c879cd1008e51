import Verif.Props.Gradients
import Verif.Props.MannLifetime
import Verif.Props.ObjectiveHistory

/-!
# The gradients of a fit are not those of its objective (C104)
-/

namespace Verif
open Fl Filter Topology Verif.Spec

noncomputable section

/-! ### Without coherence data, and apart from `MANN`, they are -/

/-- **C104** Without coherence data and for every lifetime model except `MANN`, what is differentiated is the loss itself, as a
function of all parameters. -/
theorem C104_true_gradient (cfg : TrainCfg) (D : GradRule) (st : TrainState) (θ : List ℝ) (hc : cfg.coh = none)
    (hk : st.ops.kind ≠ .mann) :
    backward cfg D st.ops θ = D.grad (fun x => open Classical in
      if x.length = (st.ops.paramVec cfg.prob.learnNu).length then
        match (closure cfg x st).1 with | .ok l => l | .error _ => nan else nan) θ := by
  unfold backward
  congr 1
  funext x
  unfold recValue
  by_cases hx : x.length = (st.ops.paramVec cfg.prob.learnNu).length
  · rw [if_neg (not_not.2 hx), if_pos hx, closure_recLoss]
    have hk' : (st.ops.setVec cfg.prob.learnNu x).kind ≠ .mann := by
      rcases h : st.ops.kind with _ | _ | _ | _ | net <;> simp [OPS.setVec, h] <;> exact hk h
    unfold recLoss
    simp only [closureCoherence, hc]
    rw [recForward_full hk']
    rcases evalTerms cfg.loss cfg.k1s cfg.phys.zref _ with e | v <;> rfl
  · rw [if_pos hx, if_neg hx]

/-! ### `MANN`: the length scale inside the lifetime is not differentiated -/

/-- **C104** For the `MANN` lifetime the recorded lifetime does not depend on the length scale, while the lifetime itself does, to
first order: zero is not its derivative with respect to the logarithm of the length scale, at any wavevector. -/
theorem C104_mann_length {s : OPS} (h : IsMannHyp s.hyp) (hk : s.kind = .mann) {k : K3} (hv : k.vec ≠ 0) :
    (∀ a : ℝ, OPS.recLifetime { s with logL := a } s k = OPS.recLifetime s s k) ∧
    ∀ g : ℝ → ℝ, (∀ a, ∃ f, (OPS.EddyLifetime true { s with logL := a }).1 = .ok f ∧ f k = fin (g a)) →
      ¬ HasDerivAt g 0 s.logL := by
  refine ⟨fun a => by simp [OPS.recLifetime, hk], fun g hg hd => ?_⟩
  have hn : 0 < vecNorm [k.k1, k.k2, k.k3] := (norm_smul_pos hv one_pos).1
  set N := vecNorm [k.k1, k.k2, k.k3] with hN
  have hpos : ∀ a : ℝ, 0 < Real.exp a * N := fun a => mul_pos (Real.exp_pos a) hn
  have hval : ∀ a, g a = Real.exp s.logT * mannTau s.hyp (Real.exp a * N) := by
    intro a
    obtain ⟨f, hf, hfk⟩ := hg a
    have hty : OPS.ty (OPS.initApprox (OPS.expScales { s with logL := a })) = .mann := by
      unfold OPS.ty
      rw [(initApprox_fields _).2.1]
      simp [OPS.expScales, hk]
    simp only [OPS.EddyLifetime, if_true, Except.ok.injEq] at hf
    subst hf
    rw [hty] at hfk
    have : fin (Real.exp s.logT) * MannEddyLifetime s.hyp (fin (Real.exp a * N)) = fin (g a) := by
      rw [← hfk, hN]
      rfl
    rw [mannTau_eq h (hpos a), fin_mul_fin, fin_inj] at this
    exact this.symm
  have hanti : ∀ t, s.logL < t → Real.exp (2 / 3 * t) * g t < Real.exp (2 / 3 * s.logL) * g s.logL := by
    intro t ht
    obtain ⟨τ, τ', e1, e2, -, -, h3, -⟩ := C90_slopes h (hpos s.logL)
      (mul_lt_mul_of_pos_right (Real.exp_lt_exp.2 ht) hn)
    rw [mannTau_eq h (hpos _), fin_inj] at e1 e2
    subst e1 e2
    rw [hval, hval]
    have ex : ∀ a : ℝ, (Real.exp a * N) ^ (2 / 3 : ℝ) = Real.exp (2 / 3 * a) * N ^ (2 / 3 : ℝ) := by
      intro a
      rw [Real.mul_rpow (Real.exp_pos a).le hn.le, ← Real.exp_mul, mul_comm a]
    rw [ex, ex] at h3
    have hc : 0 < Real.exp s.logT / N ^ (2 / 3 : ℝ) := div_pos (Real.exp_pos _) (Real.rpow_pos_of_pos hn _)
    have hN0 : N ^ (2 / 3 : ℝ) ≠ 0 := (Real.rpow_pos_of_pos hn _).ne'
    have h4 := mul_lt_mul_of_pos_left h3 hc
    calc _ = Real.exp s.logT / N ^ (2 / 3 : ℝ) *
          (Real.exp (2 / 3 * t) * N ^ (2 / 3 : ℝ) * mannTau s.hyp (Real.exp t * N)) := by field_simp
      _ < _ := h4
      _ = _ := by field_simp
  have hgpos : 0 < g s.logL := by
    rw [hval]
    exact mul_pos (Real.exp_pos _) (mannTau_pos h (hpos _))
  have hde : HasDerivAt (fun t => Real.exp (2 / 3 * t) * g t) (Real.exp (2 / 3 * s.logL) * (2 / 3) * g s.logL) s.logL := by
    have h1 : HasDerivAt (fun t : ℝ => Real.exp (2 / 3 * t)) (Real.exp (2 / 3 * s.logL) * (2 / 3)) s.logL := by
      simpa using ((hasDerivAt_id s.logL).const_mul (2 / 3 : ℝ)).exp
    have h2 := h1.mul hd
    rw [mul_zero, add_zero] at h2
    exact h2
  have hdp : 0 < Real.exp (2 / 3 * s.logL) * (2 / 3) * g s.logL := by positivity
  have hsl := (hasDerivAt_iff_tendsto_slope.1 hde).mono_left (nhdsGT_le_nhdsNE s.logL)
  have hle : Real.exp (2 / 3 * s.logL) * (2 / 3) * g s.logL ≤ 0 := by
    refine le_of_tendsto hsl ?_
    filter_upwards [self_mem_nhdsWithin] with t ht
    have ht' : s.logL < t := ht
    rw [slope_def_field]
    exact div_nonpos_of_nonpos_of_nonneg (by linarith [hanti t ht']) (by linarith)
  linarith

/-! ### The coherence misfit does vary -/

theorem tendsto_trapz {g : List ℝ} {f : ℕ → ℝ → ℝ} {l : ℝ → ℝ} (h : ∀ y ∈ g, Tendsto (fun n => f n y) atTop (𝓝 (l y))) :
    Tendsto (fun n => trapz g (g.map (f n))) atTop (𝓝 (trapz g (g.map l))) := by
  induction g with
  | nil => simp [trapz]
  | cons a t ih =>
    cases t with
    | nil => simp [trapz]
    | cons b t =>
      simp only [trapz_cons2, smul_eq_mul]
      exact (((h a (by simp)).add (h b (by simp))).const_mul _).add (ih fun y hy => h y (by simp [hy]))

theorem tendsto_quad23 {g2 g3 : List ℝ} {f : ℕ → ℝ → ℝ → ℝ} {l : ℝ → ℝ → ℝ}
    (h : ∀ y ∈ g2, ∀ z ∈ g3, Tendsto (fun n => f n y z) atTop (𝓝 (l y z))) :
    Tendsto (fun n => quad23 g2 g3 (f n)) atTop (𝓝 (quad23 g2 g3 l)) := by
  unfold quad23
  exact tendsto_trapz (f := fun n y => trapz g3 (g3.map (f n y))) fun y hy => tendsto_trapz fun z hz => h y hy z hz

/-- The w density for a constant lifetime, unit length and time scales and the spectrum `κ^p`. -/
theorem cohDensity_w (hyp : ℝ → ℝ) (p m k2 k3 : ℝ) :
    Spec.cohDensity ⟨hyp, .const, .learnable p 0, 0, 0, m⟩ .w 1 k2 k3 =
      max (Real.exp m * Real.sqrt (1 + k2 ^ 2 + (k3 + 1) ^ 2) ^ p / (4 * Real.pi) / (1 + k2 ^ 2 + k3 ^ 2) ^ 2 * (1 + k2 ^ 2)) 1e-32 := by
  unfold Spec.cohDensity
  congr 1
  have hb : (eddyLifetime hyp .const (OPSParams.L ⟨hyp, .const, .learnable p 0, 0, 0, m⟩)
      (OPSParams.T ⟨hyp, .const, .learnable p 0, 0, 0, m⟩) ⟨1, k2, k3⟩).toReal = 1 := by
    simp [eddyLifetime, OPSParams.T]
  unfold Spec.fitTensor
  simp only [hb]
  have h1 := congrArg Phi6.p33 (phiRaw_sheared (k := ⟨1, k2, k3⟩) one_ne_zero 1
    (Spec.energyOf (OPSParams.L ⟨hyp, .const, .learnable p 0, 0, 0, m⟩) (OPSParams.M ⟨hyp, .const, .learnable p 0, 0, 0, m⟩) (.learnable p 0)))
  rw [phiRaw_fin one_ne_zero] at h1
  have h2 := Fl.fin.inj h1
  refine h2.symm.trans ?_
  have e0 : kk0R ⟨1, k2, k3⟩ 1 = 1 + k2 ^ 2 + (k3 + 1) ^ 2 := by unfold kk0R k30R; simp only; ring
  have e1 : kkR ⟨1, k2, k3⟩ = 1 + k2 ^ 2 + k3 ^ 2 := by unfold kkR; simp only; ring
  have e2 : sR ⟨1, k2, k3⟩ = 1 + k2 ^ 2 := by unfold sR; simp only; ring
  clear h1 h2 hb
  rw [e0, e1, e2]
  simp only [Spec.energyOf, Spec.learnE, OPSParams.L, OPSParams.M, Real.exp_zero, Real.one_rpow, mul_one, one_mul, Real.rpow_zero, div_one]
  ring

/-- On a symmetric grid the w coherence at a quarter period of the outermost wavenumber is positive for the cut-off tensor and
tends to zero as the spectral exponent grows. -/
theorem cohW_nonconst (hyp : ℝ → ℝ) (phys : PhysCfg) (h1 : phys.factor * 1 / phys.Uref = 1) {a c d : ℝ} {l : List ℝ}
    (hg : (a :: c :: d :: l).Pairwise (· < ·)) (hsym : (a :: c :: d :: l).reverse.map (fun x => -x) = a :: c :: d :: l) :
    ∃ (m : ℝ) (n : ℕ) (r : ℝ),
      Spec.fitCoherence phys (a :: c :: d :: l) ⟨hyp, .const, .learnable 0 0, 0, 0, m⟩ .w r 1 ≠
      Spec.fitCoherence phys (a :: c :: d :: l) ⟨hyp, .const, .learnable n 0, 0, 0, 0⟩ .w r 1 := by
  set g := a :: c :: d :: l with hgdef
  have hle := hg.imp le_of_lt
  have hneg : ∀ x ∈ g, -x ∈ g := by
    intro x hx
    rw [← hsym]
    simp [hx]
  have hge : ∀ x ∈ g, a ≤ x := by
    intro x hx
    rcases List.mem_cons.1 hx with rfl | hx
    · exact le_rfl
    · exact ((List.pairwise_cons.1 hg).1 x hx).le
  have hac : a < c := (List.pairwise_cons.1 hg).1 c (by simp)
  have hcd : c < d := (List.pairwise_cons.1 (List.pairwise_cons.1 hg).2).1 d (by simp)
  have hle' : ∀ x ∈ g, x ≤ -a := fun x hx => by linarith [hge _ (hneg x hx)]
  have had : d ≤ -a := hle' d (by simp [hgdef])
  set K := -a with hK
  have hK0 : 0 < K := by linarith
  have hKm : K ∈ g := hneg a (by simp [hgdef])
  set r := Real.pi / (2 * K) with hr
  have hKr : K * r = Real.pi / 2 := by rw [hr]; field_simp
  have hr0 : 0 < r := by rw [hr]; positivity
  have hcos : ∀ x ∈ g, 0 ≤ Real.cos (x * r) := by
    intro x hx
    apply Real.cos_nonneg_of_neg_pi_div_two_le_of_le
    · have := mul_le_mul_of_nonneg_right (hge x hx) hr0.le
      rw [show a = -K by rw [hK]; ring] at this
      linarith
    · linarith [mul_le_mul_of_nonneg_right (hle' x hx) hr0.le]
  have hcosc : 0 < Real.cos (c * r) := by
    apply Real.cos_pos_of_mem_Ioo
    constructor
    · have := mul_lt_mul_of_pos_right hac hr0
      rw [show a = -K by rw [hK]; ring] at this
      linarith
    · linarith [mul_lt_mul_of_pos_right (hcd.trans_le had) hr0]
  have hcosK : ∀ x : ℝ, x ^ 2 = K ^ 2 → Real.cos (x * r) = 0 := by
    intro x hx
    rcases sq_eq_sq_iff_eq_or_eq_neg.1 hx with rfl | rfl
    · rw [hKr, Real.cos_pi_div_two]
    · rw [neg_mul, Real.cos_neg, hKr, Real.cos_pi_div_two]
  have val : ∀ p : OPSParams, Spec.fitCoherence phys g p .w r 1 =
      ((quad23 g g fun k2 k3 => Spec.cohDensity p .w 1 k2 k3 * Real.cos (k2 * r)) ^ 2 +
      (quad23 g g fun k2 k3 => Spec.cohDensity p .w 1 k2 k3 * Real.sin (k2 * r)) ^ 2) /
      (quad23 g g fun k2 k3 => Spec.cohDensity p .w 1 k2 k3) ^ 2 := by
    intro p
    unfold Spec.fitCoherence
    rw [if_pos (by norm_num), h1]
  -- the cut-off tensor
  set m := Real.log 1e-32 with hm
  have dA : ∀ k2 k3, Spec.cohDensity ⟨hyp, .const, .learnable 0 0, 0, 0, m⟩ .w 1 k2 k3 = 1e-32 := by
    intro k2 k3
    rw [cohDensity_w, Real.rpow_zero, hm, Real.exp_log (by norm_num)]
    apply max_eq_right
    have h4 : 1 ≤ 4 * Real.pi := by linarith [Real.two_le_pi]
    have hq : 1 + k2 ^ 2 ≤ (1 + k2 ^ 2 + k3 ^ 2) ^ 2 := by nlinarith [sq_nonneg k2, sq_nonneg k3]
    have hq0 : 0 < (1 + k2 ^ 2 + k3 ^ 2) ^ 2 := by positivity
    rw [div_div, div_mul_eq_mul_div, div_le_iff₀ (by positivity)]
    rw [mul_one]
    apply mul_le_mul_of_nonneg_left _ (by norm_num)
    nlinarith
  have hX : 0 < Spec.fitCoherence phys g ⟨hyp, .const, .learnable 0 0, 0, 0, m⟩ .w r 1 := by
    rw [val]
    simp only [dA]
    have hw : 0 < trapz g (g.map fun _ => (1e-32 : ℝ)) := by
      have := trapz_lt_head (a := a) (c := c) (l := d :: l) hg (f := fun _ => 0) (f' := fun _ => 1e-32)
        (fun _ _ => by norm_num) (by norm_num)
      rwa [trapz_odd hsym (by simp)] at this
    have hQ : 0 < quad23 g g fun _ _ => (1e-32 : ℝ) := by
      have := quad23_lt_head (a := a) (c := c) (l := d :: l) hg (f := fun _ _ => 0) (f' := fun _ _ => 1e-32)
        (fun _ _ _ _ => by norm_num) (by norm_num)
      have h0 : quad23 g g (fun _ _ => (0 : ℝ)) = 0 := by
        unfold quad23
        exact trapz_odd hsym fun _ _ => by rw [trapz_odd hsym (by simp), neg_zero]
      rwa [h0] at this
    have hC : 0 < quad23 g g fun k2 _ => (1e-32 : ℝ) * Real.cos (k2 * r) := by
      unfold quad23
      have e : ∀ k2, trapz g (g.map fun _ => (1e-32 : ℝ) * Real.cos (k2 * r)) =
          Real.cos (k2 * r) * trapz g (g.map fun _ => (1e-32 : ℝ)) := by
        intro k2
        rw [← trapz_map_const_mul]
        exact trapz_congr fun _ _ => mul_comm _ _
      simp only [e]
      rw [hgdef, trapz_cons2, ← hgdef]
      have h2 := trapz_nonneg (List.pairwise_cons.1 hle).2 (f := fun k2 => Real.cos (k2 * r) * trapz g (g.map fun _ => (1e-32 : ℝ)))
        fun x hx => mul_nonneg (hcos x (by rw [hgdef]; exact List.mem_cons_of_mem _ hx)) hw.le
      have h3 : 0 < (c - a) / 2 := by linarith
      have h4 := hcos a (by simp [hgdef])
      simp only [smul_eq_mul]
      have h5 : 0 < (c - a) / 2 * (Real.cos (a * r) * trapz g (g.map fun _ => (1e-32 : ℝ)) +
          Real.cos (c * r) * trapz g (g.map fun _ => (1e-32 : ℝ))) :=
        mul_pos h3 (add_pos_of_nonneg_of_pos (mul_nonneg h4 hw.le) (mul_pos hcosc hw))
      linarith
    positivity
  -- the tensor with a steep spectrum
  set R := 1 + K ^ 2 + (K + 1) ^ 2 with hR
  set w : ℝ → ℝ → ℝ := fun k2 k3 => 1 / (4 * Real.pi) / (1 + k2 ^ 2 + k3 ^ 2) ^ 2 * (1 + k2 ^ 2) with hw
  set lim : ℝ → ℝ → ℝ := fun k2 k3 => if 1 + k2 ^ 2 + (k3 + 1) ^ 2 = R then w k2 k3 else 0 with hlim
  have hsq : ∀ x ∈ g, x ^ 2 ≤ K ^ 2 := by
    intro x hx
    have h1 := hle' x hx
    have h2 := hge x hx
    nlinarith
  have hsq3 : ∀ x ∈ g, (x + 1) ^ 2 ≤ (K + 1) ^ 2 := by
    intro x hx
    have h1 := hle' x hx
    have h2 := hge x hx
    nlinarith
  have hRpos : 0 < R := by positivity
  have hR1 : 1 < R := by rw [hR]; nlinarith
  have dB : ∀ k2 ∈ g, ∀ k3 ∈ g, Tendsto (fun n : ℕ =>
      (Real.sqrt R ^ n)⁻¹ * Spec.cohDensity ⟨hyp, .const, .learnable n 0, 0, 0, 0⟩ .w 1 k2 k3) atTop (𝓝 (lim k2 k3)) := by
    intro k2 h2 k3 h3
    have hw0 : 0 ≤ w k2 k3 := by simp only [hw]; positivity
    have hs1 : 1 < Real.sqrt R := by rw [Real.lt_sqrt (by norm_num)]; linarith
    have e : ∀ n : ℕ, (Real.sqrt R ^ n)⁻¹ * Spec.cohDensity ⟨hyp, .const, .learnable n 0, 0, 0, 0⟩ .w 1 k2 k3 =
        max (Real.sqrt ((1 + k2 ^ 2 + (k3 + 1) ^ 2) / R) ^ n * w k2 k3) ((Real.sqrt R)⁻¹ ^ n * 1e-32) := by
      intro n
      rw [cohDensity_w, mul_max_of_nonneg _ _ (by positivity), Real.exp_zero, one_mul, Real.rpow_natCast, Real.sqrt_div (by positivity),
        div_pow, inv_pow]
      congr 1
      simp only [hw]
      ring
    simp only [e]
    have t2 : Tendsto (fun n : ℕ => (Real.sqrt R)⁻¹ ^ n * (1e-32 : ℝ)) atTop (𝓝 0) := by
      simpa using (tendsto_pow_atTop_nhds_zero_of_lt_one (inv_nonneg.2 (Real.sqrt_nonneg R)) (inv_lt_one_of_one_lt₀ hs1)).mul_const (1e-32 : ℝ)
    have t1 : Tendsto (fun n : ℕ => Real.sqrt ((1 + k2 ^ 2 + (k3 + 1) ^ 2) / R) ^ n * w k2 k3) atTop (𝓝 (lim k2 k3)) := by
      simp only [hlim]
      split_ifs with hcase
      · rw [hcase, div_self hRpos.ne']
        simp
      · have hlt : 1 + k2 ^ 2 + (k3 + 1) ^ 2 < R := lt_of_le_of_ne (by rw [hR]; linarith [hsq k2 h2, hsq3 k3 h3]) hcase
        have hs : Real.sqrt ((1 + k2 ^ 2 + (k3 + 1) ^ 2) / R) < 1 := by
          rw [Real.sqrt_lt' one_pos, one_pow, div_lt_one hRpos]; exact hlt
        simpa using (tendsto_pow_atTop_nhds_zero_of_lt_one (Real.sqrt_nonneg _) hs).mul_const (w k2 k3)
    have hl0 : 0 ≤ lim k2 k3 := by simp only [hlim]; split_ifs <;> [exact hw0; exact le_rfl]
    simpa [max_eq_left hl0] using t1.max t2
  have hlimcos : ∀ k2 ∈ g, ∀ k3 ∈ g, lim k2 k3 * Real.cos (k2 * r) = 0 := by
    intro k2 h2 k3 h3
    simp only [hlim]
    split_ifs with hcase
    · rw [hcosK k2 (by rw [hR] at hcase; linarith [hsq k2 h2, hsq3 k3 h3]), mul_zero]
    · rw [zero_mul]
  have qC : quad23 g g (fun k2 k3 => lim k2 k3 * Real.cos (k2 * r)) = 0 := by
    rw [quad23_congr (f' := fun _ _ => (0 : ℝ)) hlimcos]
    unfold quad23
    exact trapz_odd hsym fun _ _ => by rw [trapz_odd hsym (by simp), neg_zero]
  have hlim0 : ∀ k2 k3, 0 ≤ lim k2 k3 := by
    intro k2 k3
    simp only [hlim, hw]
    split_ifs <;> positivity
  have qQ : 0 < quad23 g g lim := by
    unfold quad23
    have e : ∀ k2, trapz g (g.map (lim k2)) = trapz g (g.map fun k3 => lim k2 (-k3)) := fun k2 => (trapz_symm hsym _).symm
    simp only [e]
    have h3 := quad23_lt_head (a := a) (c := c) (l := d :: l) hg (f := fun _ _ => 0) (f' := fun k2 k3 => lim k2 (-k3))
      (fun _ _ _ _ => hlim0 _ _) (by
        simp only [hlim, hw, ← hK]
        rw [if_pos (by rw [hR, hK]; ring)]
        positivity)
    have h0 : quad23 g g (fun _ _ => (0 : ℝ)) = 0 := by
      unfold quad23
      exact trapz_odd hsym fun _ _ => by rw [trapz_odd hsym (by simp), neg_zero]
    rw [← hgdef, h0] at h3
    exact h3
  have hsin : ∀ n : ℕ, quad23 g g (fun k2 k3 =>
      Spec.cohDensity ⟨hyp, .const, .learnable n 0, 0, 0, 0⟩ .w 1 k2 k3 * Real.sin (k2 * r)) = 0 := by
    intro n
    unfold quad23
    refine trapz_odd hsym fun k2 _ => ?_
    rw [← trapz_neg]
    refine trapz_congr fun k3 _ => ?_
    simp only [cohDensity_w, neg_mul, Real.sin_neg, neg_sq, mul_neg]
  have tC := tendsto_quad23 (f := fun n k2 k3 => (Real.sqrt R ^ n)⁻¹ *
      Spec.cohDensity ⟨hyp, .const, .learnable n 0, 0, 0, 0⟩ .w 1 k2 k3 * Real.cos (k2 * r)) fun k2 h2 k3 h3 =>
        (dB k2 h2 k3 h3).mul_const (Real.cos (k2 * r))
  have tQ := tendsto_quad23 dB
  rw [qC] at tC
  have hquot : ∀ n : ℕ, Spec.fitCoherence phys g ⟨hyp, .const, .learnable n 0, 0, 0, 0⟩ .w r 1 =
      (quad23 g g fun k2 k3 => (Real.sqrt R ^ n)⁻¹ *
        Spec.cohDensity ⟨hyp, .const, .learnable n 0, 0, 0, 0⟩ .w 1 k2 k3 * Real.cos (k2 * r)) ^ 2 /
      (quad23 g g fun k2 k3 => (Real.sqrt R ^ n)⁻¹ *
        Spec.cohDensity ⟨hyp, .const, .learnable n 0, 0, 0, 0⟩ .w 1 k2 k3) ^ 2 := by
    intro n
    have hs : (Real.sqrt R ^ n)⁻¹ ≠ 0 := by positivity
    have e1 := quad23_smul g g (fun k2 k3 => Spec.cohDensity ⟨hyp, .const, .learnable n 0, 0, 0, 0⟩ .w 1 k2 k3) (Real.sqrt R ^ n)⁻¹
    have e2 := quad23_smul g g (fun k2 k3 => Spec.cohDensity ⟨hyp, .const, .learnable n 0, 0, 0, 0⟩ .w 1 k2 k3 * Real.cos (k2 * r))
      (Real.sqrt R ^ n)⁻¹
    have e3 : (quad23 g g fun k2 k3 => (Real.sqrt R ^ n)⁻¹ *
        Spec.cohDensity ⟨hyp, .const, .learnable n 0, 0, 0, 0⟩ .w 1 k2 k3 * Real.cos (k2 * r)) = _ :=
      (quad23_congr fun _ _ _ _ => mul_assoc _ _ _).trans e2
    rw [val, hsin, e1, e3, mul_pow, mul_pow, mul_div_mul_left _ _ (pow_ne_zero 2 hs)]
    congr 1
    ring
  by_contra hcon
  push Not at hcon
  have hX' : ∀ n : ℕ, Spec.fitCoherence phys g ⟨hyp, .const, .learnable n 0, 0, 0, 0⟩ .w r 1 =
      Spec.fitCoherence phys g ⟨hyp, .const, .learnable 0 0, 0, 0, m⟩ .w r 1 := fun n => (hcon m n r).symm
  have t := (tC.pow 2).div (tQ.pow 2) (pow_pos qQ 2).ne'
  have t' := t.congr fun n => (hquot n).symm.trans (hX' n)
  have := tendsto_nhds_unique t' tendsto_const_nhds
  simp at this
  linarith

theorem cohFallback_shape {L : ℝ} (hL : 0 < L) : ∃ a c d l, cohFallbackGrid L = a :: c :: d :: l ∧
    (cohFallbackGrid L).reverse.map (fun x => -x) = cohFallbackGrid L := by
  have hl := (C22_grids hL).2.1
  rcases hgg : cohFallbackGrid L with _ | ⟨a, _ | ⟨c, _ | ⟨d, l⟩⟩⟩
  · simp [hgg] at hl
  · simp [hgg] at hl
  · simp [hgg] at hl
  · refine ⟨a, c, d, l, rfl, ?_⟩
    rw [← hgg]
    have h := congrArg (List.map fun x => x * (1 / L)) (opsGrid_symm (-3) 3 100)
    unfold cohFallbackGrid
    rw [← List.map_reverse, List.map_map]
    rw [List.map_map] at h
    refine Eq.trans (List.map_congr_left fun x _ => ?_) h
    simp

/-- **C104** Hence the gradient of a fit with coherence data is not the gradient of its loss.  For every object with constant
lifetime, learnable spectrum and no coherence grid there are a configuration with coherence data and a line in parameter space
along which the loss `F` and the loss without coherence data `F₀` are finite, every differentiation engine returns the same
gradient for both at every point, and yet `F - F₀` is not constant: it vanishes at one point and is positive at another, so that zero
is not its derivative everywhere. -/
theorem C104_not_the_gradient (s : OPS) (hs : s.cohGrid = none) (hk : s.kind = .const) {p q : ℝ}
    (hsp : s.sp = .learnable p q) (hg : s.grid.Pairwise (· < ·)) (h2 : 2 ≤ s.grid.length) :
    ∃ (cfg : TrainCfg) (st : TrainState) (u v : List ℝ) (F F₀ : ℝ → ℝ), cfg.coh ≠ none ∧
      calibrateStart cfg s = (.ok (), st) ∧ u.length = (s.paramVec cfg.prob.learnNu).length ∧ v.length = u.length ∧
      (∀ t : ℝ, (closure cfg (List.zipWith (fun x y => x + t * y) u v) st).1 = .ok (fin (F t)) ∧
        (closure cfg.noCoherence (List.zipWith (fun x y => x + t * y) u v) st).1 = .ok (fin (F₀ t)) ∧
        ∀ D : GradRule, backward cfg D st.ops (List.zipWith (fun x y => x + t * y) u v) =
          backward cfg.noCoherence D st.ops (List.zipWith (fun x y => x + t * y) u v)) ∧
      F 0 - F₀ 0 = 0 ∧ 0 < F 1 - F₀ 1 ∧ ¬ ∀ t, HasDerivAt (fun t => F t - F₀ t) 0 t := by
  have hsound : ∀ o : OPS, o.kind = .const → o.params.LifetimeFinite := fun o h => by
    have : o.Sound := by unfold OPS.Sound; rw [h]; trivial
    exact this.finite
  set G := cohFallbackGrid (Real.exp s.logL) with hG
  have gG := C22_grids (Real.exp_pos s.logL)
  obtain ⟨a, c, d, l, hshape, hsym⟩ := cohFallback_shape (Real.exp_pos s.logL)
  rw [← hG] at gG hshape hsym
  let phys : PhysCfg := ⟨1, 1, 1, 1, 1, 1, 1⟩
  obtain ⟨m, n, r, hne⟩ := cohW_nonconst s.hyp phys (by norm_num [phys]) (a := a) (c := c) (d := d) (l := l)
    (by rw [← hshape]; exact gG.1) (by rw [← hshape]; exact hsym)
  rw [← hshape] at hne
  let P : ℝ → OPSParams := fun t => ⟨s.hyp, .const, .learnable (t * n) 0, 0, 0, m + t * (-m)⟩
  let D : Fin 3 → ℕ → ℕ → ℝ := fun c _ _ => Spec.fitCoherence phys G (P 0) (![Comp3.u, Comp3.v, Comp3.w] c) r 1
  let cfg : TrainCfg := ⟨⟨3, 1e-3, 1, false, .const, false, true, 4, 17 / 6⟩, phys, ⟨0, 0, 0, 1⟩,
    (List.range 3).map fun j : ℕ => (j : ℝ) + 1, Spec.table 3 3 fun _ _ => fin 1,
    some ⟨(List.range 1).map fun _ => 1, (List.range 1).map fun _ => r, Spec.table 1 1 fun i j => fin (D 0 i j),
      Spec.table 1 1 fun i j => fin (D 1 i j), Spec.table 1 1 fun i j => fin (D 2 i j)⟩⟩
  have hF : Spec.FitSetting cfg 3 (fun j => (j : ℝ) + 1) fun _ _ => 1 :=
    ⟨rfl, le_rfl, ⟨fun j _ => by positivity, fun j _ => by push_cast; linarith⟩, rfl, rfl, fun _ _ _ _ => one_ne_zero, one_ne_zero⟩
  have hF0 : Spec.FitSetting cfg.noCoherence 3 (fun j => (j : ℝ) + 1) fun _ _ => 1 :=
    ⟨rfl, le_rfl, ⟨fun j _ => by positivity, fun j _ => by push_cast; linarith⟩, rfl, rfl, fun _ _ _ _ => one_ne_zero, one_ne_zero⟩
  obtain ⟨st, hst, hgst⟩ := start_ok cfg hF s (hsound _ hk) hg h2 le_rfl le_rfl le_rfl
  have harch := arch_start false cfg s
  rw [hst] at harch
  have hcg : st.ops.cohGrid = some G := by
    rcases start_grid hst with h4 | h4
    · simp [cfg] at h4
    · rw [h4]
      simp [OPS.cohGridUsed, hs, hG]
  set θ : ℝ → List ℝ := fun t => [0, 0, m + t * (-m), t * n, 0] with hθ
  have hpar : ∀ t, (st.ops.setVec false (θ t)).params = P t := by
    intro t
    let tgt : OPS := { s with logL := 0, logT := 0, logM := m + t * (-m), sp := .learnable (t * n) 0 }
    have h2 : Arch false s tgt :=
      ⟨rfl, rfl, rfl, KindShape.refl _ _, by rw [hsp]; exact trivial, initApprox_congr rfl rfl rfl rfl rfl⟩
    have h3 := harch.trans h2
    have e : θ t = tgt.paramVec false := by simp [hθ, OPS.paramVec, tgt, hk]
    rw [e, h3.setVec_params (v := tgt.paramVec false) (by rw [h3.length]), setVec_paramVec]
    have hty : tgt.initApprox.ty = .const := by
      unfold OPS.ty
      rw [(initApprox_fields tgt).2.1]
      simp [tgt, hk]
    unfold OPS.params
    rw [hty]
  have hfin : ∀ t, (st.ops.setVec false (θ t)).params.LifetimeFinite := fun t => by
    rw [hpar]
    exact lifetimeFinite_of (P t) trivial
  have hz : ∀ t : ℝ, List.zipWith (fun x y => x + t * y) [0, 0, m, 0, 0] [0, 0, -m, (n : ℝ), 0] = θ t := by
    intro t
    simp [hθ]
  have sett : Spec.cohSetting cfg st.ops.cohGrid 1 1 (fun _ => r) (fun _ => 1) D :=
    Or.inr ⟨_, hcg, gG.1, by rw [gG.2.1]; norm_num, one_pos, one_pos, one_pos, one_pos, rfl⟩
  have sett0 : Spec.cohSetting cfg.noCoherence st.ops.cohGrid 1 1 (fun _ => r) (fun _ => 1) D := Or.inl rfl
  let F : ℝ → ℝ := fun t => Spec.objective cfg 3 (fun j => (j : ℝ) + 1) (fun _ _ => 1) 1 1 (fun _ => r) (fun _ => 1) D
    (st.ops.setVec false (θ t))
  let F₀ : ℝ → ℝ := fun t => Spec.objective cfg.noCoherence 3 (fun j => (j : ℝ) + 1) (fun _ _ => 1) 1 1 (fun _ => r) (fun _ => 1) D
    (st.ops.setVec false (θ t))
  have lA : ∀ t, (closure cfg (θ t) st).1 = .ok (fin (F t)) := fun t =>
    closure_objective cfg hF st (by rw [hgst]; exact hg) (by rw [hgst]; exact h2) sett (θ t) (hfin t) fun h => absurd h (lt_irrefl _)
  have lB : ∀ t, (closure cfg.noCoherence (θ t) st).1 = .ok (fin (F₀ t)) := fun t =>
    closure_objective cfg.noCoherence hF0 st (by rw [hgst]; exact hg) (by rw [hgst]; exact h2) sett0 (θ t) (hfin t)
      fun h => absurd h (lt_irrefl _)
  have hdiff : ∀ t, F t - F₀ t = Spec.coherenceMisfit 1 1
      (fun c _ _ => Spec.fitCoherence phys G (P t) (![Comp3.u, Comp3.v, Comp3.w] c) r 1) D := by
    intro t
    have w1 : cfg.coh.isSome = true := rfl
    have w1' : cfg.noCoherence.coh.isSome = false := rfl
    have w2 : cfg.loss.gammaCoherence = 1 := rfl
    have w3 : cfg.loss.alphaPen1 = 0 := rfl
    have w4 : cfg.loss.alphaPen2 = 0 := rfl
    have w5 : cfg.loss.betaReg = 0 := rfl
    have w6 : cfg.phys = phys := rfl
    have w7 : cfg.noCoherence.loss = cfg.loss := rfl
    have cA' : (st.ops.setVec false (θ t)).cohGrid = some G := hcg
    simp only [F, F₀]
    unfold Spec.objective
    simp only [hpar, cA', Option.getD_some, w1, w1', w2, w3, w4, w5, w6, w7, if_true, max_self, zero_mul, zero_div, add_zero,
      max_eq_left (zero_le_one (α := ℝ)), one_mul, Bool.false_eq_true, if_false]
    ring
  have h0 : F 0 - F₀ 0 = 0 := by
    rw [hdiff]
    exact (coherenceMisfit_zero one_pos one_pos _ _).2 fun _ _ _ _ _ => rfl
  have h1 : 0 < F 1 - F₀ 1 := by
    rw [hdiff]
    refine lt_of_le_of_ne (coherenceMisfit_nonneg _ _ _ _) fun h => hne ?_
    have := (coherenceMisfit_zero one_pos one_pos _ _).1 h.symm 2 0 one_pos 0 one_pos
    simp only [D, P] at this
    simpa using this.symm
  refine ⟨cfg, st, [0, 0, m, 0, 0], [0, 0, -m, n, 0], F, F₀, by simp [cfg], hst, by simp [OPS.paramVec, hsp, hk], rfl,
    fun t => ?_, h0, h1, fun hd => ?_⟩
  · rw [hz]
    exact ⟨lA t, lB t, fun D => C104_coherence_silent cfg D st (θ t) (lA t)⟩
  · have hc := is_const_of_deriv_eq_zero (fun t => (hd t).differentiableAt) (fun t => (hd t).deriv) 0 1
    have hc : F 0 - F₀ 0 = F 1 - F₀ 1 := hc
    rw [h0] at hc
    linarith

/-- A freshly constructed object with learnable spectrum meets the hypotheses. -/
example (hyp : ℝ → ℝ) : ∃ s, OPS.init hyp .const (.learnable 4 (17 / 6)) 1 1 1 (-3) 3 100 none = .ok s ∧ s.cohGrid = none ∧
    s.kind = .const ∧ s.sp = .learnable 4 (17 / 6) ∧ s.grid.Pairwise (· < ·) ∧ 2 ≤ s.grid.length :=
  ⟨_, if_pos ⟨one_pos, one_pos, one_pos⟩, rfl, rfl, rfl, opsGrid_sorted (by norm_num) 100, by
    show 2 ≤ (opsGrid (-3) 3 100).length
    rw [opsGrid_length]; norm_num⟩

/-- Gradient descent with a learning rate that is reduced on advice is a legal optimiser for `C104_instance` and `C104_adam`. -/
example (n : ℕ) (lr : ℝ) : GradOpt.Legal ⟨fun _ events hist => (List.range n).map fun i =>
    ((hist.getLastD ([], [])).1.getD i 0) -
      (events.foldl (fun r ev => r * ev.2) lr) * (((hist.getLastD ([], [])).2.getD i nan).toReal)⟩ n :=
  fun _ _ _ => by simp

/-- A wavevector and a hypergeometric factor for `C104_mann_length`. -/
example : (∃ hyp, IsMannHyp hyp) ∧ (K3.vec ⟨1, 0, 0⟩) ≠ 0 :=
  ⟨exists_isMannHyp, fun h => by have := congrFun h 0; simp [K3.vec] at this⟩

end
end Verif
