import Verif.Lemmas.OnePoint
import Verif.Lemmas.Hyp
import Mathlib.Topology.Algebra.Monoid
import Mathlib.Analysis.SpecialFunctions.Complex.Arg
import Mathlib.Analysis.SpecialFunctions.Pow.Continuity

/-! Continuity of the sheared tensor and of the eddy lifetimes in the transverse wavenumbers. -/

namespace Verif
open Fl Filter Topology Verif.Spec

noncomputable section

variable {α : Type} [TopologicalSpace α]

section tensor
variable {k1 : ℝ} {k2 k3 b : α → ℝ}

theorem cont_k30R (h3 : Continuous k3) (hb : Continuous b) : Continuous fun a => k30R ⟨k1, k2 a, k3 a⟩ (b a) := by
  unfold k30R; fun_prop

theorem cont_kkR (h2 : Continuous k2) (h3 : Continuous k3) : Continuous fun a => kkR ⟨k1, k2 a, k3 a⟩ := by
  unfold kkR; fun_prop

theorem cont_sR (h2 : Continuous k2) : Continuous fun a => sR ⟨k1, k2 a, k3 a⟩ := by
  unfold sR; fun_prop

theorem cont_kk0R (h2 : Continuous k2) (h3 : Continuous k3) (hb : Continuous b) :
    Continuous fun a => kk0R ⟨k1, k2 a, k3 a⟩ (b a) := by
  unfold kk0R k30R; fun_prop

theorem cont_atR (h : k1 ≠ 0) (h2 : Continuous k2) (h3 : Continuous k3) (hb : Continuous b) :
    Continuous fun a => atR ⟨k1, k2 a, k3 a⟩ (b a) := by
  have e : (fun a => atR ⟨k1, k2 a, k3 a⟩ (b a)) =
      fun a => Complex.arg (atPath k1 (k2 a) (k30R ⟨k1, k2 a, k3 a⟩ (b a)) (b a)) := by
    funext a; rfl
  rw [e, continuous_iff_continuousAt]
  intro a
  have hp : Continuous fun a => atPath k1 (k2 a) (k30R ⟨k1, k2 a, k3 a⟩ (b a)) (b a) := by
    have e2 : (fun a => atPath k1 (k2 a) (k30R ⟨k1, k2 a, k3 a⟩ (b a)) (b a)) = fun a =>
        (((k1 * k1 + k2 a * k2 a + k30R ⟨k1, k2 a, k3 a⟩ (b a) * k30R ⟨k1, k2 a, k3 a⟩ (b a)) -
          k30R ⟨k1, k2 a, k3 a⟩ (b a) * k1 * b a : ℝ) : ℂ) +
        ((b a * k1 * Real.sqrt (k1 * k1 + k2 a * k2 a) : ℝ) : ℂ) * Complex.I := by
      funext a
      apply Complex.ext <;> simp [atPath]
    rw [e2]
    unfold k30R
    fun_prop
  exact ContinuousAt.comp (f := fun a => atPath k1 (k2 a) (k30R ⟨k1, k2 a, k3 a⟩ (b a)) (b a)) (g := Complex.arg)
    (Complex.continuousAt_arg (atPath_slit h _ _ _)) hp.continuousAt

theorem cont_z12 (h : k1 ≠ 0) (h2 : Continuous k2) (h3 : Continuous k3) (hb : Continuous b) :
    Continuous (fun a => z1R ⟨k1, k2 a, k3 a⟩ (b a)) ∧ Continuous (fun a => z2R ⟨k1, k2 a, k3 a⟩ (b a)) := by
  have c0 := cont_kk0R (k1 := k1) h2 h3 hb
  have c30 := cont_k30R (k1 := k1) (k2 := k2) h3 hb
  have ck := cont_kkR (k1 := k1) h2 h3
  have cs := cont_sR (k1 := k1) (k3 := k3) h2
  have ca := cont_atR h h2 h3 hb
  have cc1 : Continuous fun a => c1R ⟨k1, k2 a, k3 a⟩ (b a) := by
    unfold c1R
    refine Continuous.div ?_ (ck.mul cs) fun a =>
      (mul_pos (kkR_pos (k := ⟨k1, k2 a, k3 a⟩) h) (sR_pos (k := ⟨k1, k2 a, k3 a⟩) h)).ne'
    simp only
    fun_prop
  have cc2 : Continuous fun a => c2R ⟨k1, k2 a, k3 a⟩ (b a) := by
    unfold c2R
    refine Continuous.mul (Continuous.div (h2.mul c0) ?_ fun a =>
      (Real.rpow_pos_of_pos (sR_pos (k := ⟨k1, k2 a, k3 a⟩) h) _).ne') ca
    exact cs.rpow_const fun a => Or.inl (sR_pos (k := ⟨k1, k2 a, k3 a⟩) h).ne'
  have hq : Continuous fun a => k2 a / k1 := h2.div_const k1
  exact ⟨cc1.sub (hq.mul cc2), (hq.mul cc1).add cc2⟩

/-- The sheared tensor is continuous in the transverse wavenumbers and the strain as long as `k1 ≠ 0`. -/
theorem cont_sheared (h : k1 ≠ 0) (h2 : Continuous k2) (h3 : Continuous k3) (hb : Continuous b) {E : ℝ → ℝ}
    (hE : ContinuousOn E (Set.Ioi 0)) (i j : Fin 3) :
    Continuous fun a => shearedTensor E (K3.vec ⟨k1, k2 a, k3 a⟩) (b a) i j := by
  have c0 := cont_kk0R (k1 := k1) h2 h3 hb
  have c30 := cont_k30R (k1 := k1) (k2 := k2) h3 hb
  have ck := cont_kkR (k1 := k1) h2 h3
  obtain ⟨cz1, cz2⟩ := cont_z12 h h2 h3 hb
  have cz3 : Continuous fun a => z3R ⟨k1, k2 a, k3 a⟩ (b a) := by
    unfold z3R
    exact c0.div ck fun a => (kkR_pos (k := ⟨k1, k2 a, k3 a⟩) h).ne'
  have cE : Continuous fun a => E (Real.sqrt (kk0R ⟨k1, k2 a, k3 a⟩ (b a))) := by
    rw [← continuousOn_univ]
    exact hE.comp (Real.continuous_sqrt.comp c0).continuousOn fun a _ =>
      Real.sqrt_pos.2 (kk0R_pos (k := ⟨k1, k2 a, k3 a⟩) h)
  have cker : ∀ i j, Continuous fun a => kerR ⟨k1, k2 a, k3 a⟩ (b a) i j := by
    intro i j
    simp only [kerR]
    have e : ∀ a, zc ⟨k1, k2 a, k3 a⟩ (b a) = (z1R ⟨k1, k2 a, k3 a⟩ (b a), z2R ⟨k1, k2 a, k3 a⟩ (b a),
      z3R ⟨k1, k2 a, k3 a⟩ (b a)) := fun a => zc_generic (k := ⟨k1, k2 a, k3 a⟩) h
    simp only [e]
    fin_cases i <;> fin_cases j <;> simp <;> fun_prop
  have e : (fun a => shearedTensor E (K3.vec ⟨k1, k2 a, k3 a⟩) (b a) i j) = fun a =>
      E (Real.sqrt (kk0R ⟨k1, k2 a, k3 a⟩ (b a))) / (4 * Real.pi) /
        (kk0R ⟨k1, k2 a, k3 a⟩ (b a) * kk0R ⟨k1, k2 a, k3 a⟩ (b a)) *
        ∑ m, kerR ⟨k1, k2 a, k3 a⟩ (b a) i m * kerR ⟨k1, k2 a, k3 a⟩ (b a) j m := by
    funext a
    exact shearedTensor_eq (k := ⟨k1, k2 a, k3 a⟩) h E i j
  rw [e]
  refine Continuous.mul (Continuous.div (cE.div_const _) (c0.mul c0) fun a =>
    (mul_pos (kk0R_pos (k := ⟨k1, k2 a, k3 a⟩) h) (kk0R_pos (k := ⟨k1, k2 a, k3 a⟩) h)).ne') ?_
  exact continuous_finsetSum _ fun m _ => (cker i m).mul (cker j m)

end tensor

/-! ### Networks -/

/-- A list-valued family with continuous entries. -/
def ContList (F : α → List ℝ) : Prop :=
  ∃ fs : List (α → ℝ), (∀ f ∈ fs, Continuous f) ∧ ∀ a, F a = fs.map fun f => f a

theorem ContList.map {F : α → List ℝ} (h : ContList F) {φ : ℝ → ℝ} (hφ : Continuous φ) :
    ContList fun a => (F a).map φ := by
  obtain ⟨fs, hc, e⟩ := h
  refine ⟨fs.map fun f a => φ (f a), ?_, ?_⟩
  · intro g hg
    obtain ⟨f, hf, rfl⟩ := List.mem_map.1 hg
    exact hφ.comp (hc f hf)
  · intro a; simp [e]

theorem cont_dot (row : List ℝ) (fs : List (α → ℝ)) (hc : ∀ f ∈ fs, Continuous f) :
    Continuous fun a => (List.zipWith (· * ·) row (fs.map fun f => f a)).sum := by
  induction row generalizing fs with
  | nil => simpa using continuous_const
  | cons w row ih =>
    cases fs with
    | nil => simpa using continuous_const
    | cons f fs =>
      simp only [List.map_cons, List.zipWith_cons_cons, List.sum_cons]
      exact (continuous_const.mul (hc f (by simp))).add (ih fs fun g hg => hc g (by simp [hg]))

theorem ContList.linear {F : α → List ℝ} (h : ContList F) (W : List (List ℝ)) : ContList fun a => linear W (F a) := by
  obtain ⟨fs, hc, e⟩ := h
  refine ⟨W.map fun row a => (List.zipWith (· * ·) row (fs.map fun f => f a)).sum, ?_, ?_⟩
  · intro g hg
    obtain ⟨row, -, rfl⟩ := List.mem_map.1 hg
    exact cont_dot row fs hc
  · intro a; simp [e, Verif.linear]

theorem ContList.zipAdd {F G : α → List ℝ} (hF : ContList F) (hG : ContList G) :
    ContList fun a => List.zipWith (· + ·) (F a) (G a) := by
  obtain ⟨fs, hc, e⟩ := hF
  obtain ⟨gs, hc', e'⟩ := hG
  refine ⟨List.zipWith (fun f g a => f a + g a) fs gs, ?_, ?_⟩
  · clear e e'
    induction fs generalizing gs with
    | nil => simp
    | cons f fs ih =>
      cases gs with
      | nil => simp
      | cons g gs =>
        simp only [List.zipWith_cons_cons, List.mem_cons]
        rintro q (rfl | hq)
        · exact (hc f (by simp)).add (hc' g (by simp))
        · exact ih (fun f hf => hc f (by simp [hf])) gs (fun g hg => hc' g (by simp [hg])) q hq
  · intro a
    simp only [e, e']
    clear e e' hc hc'
    induction fs generalizing gs with
    | nil => simp
    | cons f fs ih =>
      cases gs with
      | nil => simp
      | cons g gs => simp [ih]

theorem ContList.norm {F : α → List ℝ} (h : ContList F) : Continuous fun a => vecNorm (F a) := by
  obtain ⟨fs, hc, e⟩ := h.map (φ := fun t => t * t) (continuous_id.mul continuous_id)
  unfold vecNorm
  refine Real.continuous_sqrt.comp ?_
  simp only [e]
  clear e
  induction fs with
  | nil => simpa using continuous_const
  | cons f fs ih =>
    simp only [List.map_cons, List.sum_cons]
    exact (hc f (by simp)).add (ih fun g hg => hc g (by simp [hg]))

/-- The activations act entry by entry with a continuous function (ReLU, GELU, tanh, ...). -/
def TauNet.ContActs (net : TauNet) : Prop := ∀ φ ∈ net.activations, ∃ a : ℝ → ℝ, Continuous a ∧ φ = List.map a

theorem ContList.mlp {net : TauNet} (hn : net.ContActs) {F : α → List ℝ} (h : ContList F) :
    ContList fun a => net.mlpForward (F a) := by
  have key : ∀ (l : List (List (List ℝ) × (List ℝ → List ℝ))), (∀ p ∈ l, ∃ a : ℝ → ℝ, Continuous a ∧ p.2 = List.map a) →
      ∀ G : α → List ℝ, ContList G → ContList fun a => l.foldl (fun out la => la.2 (Verif.linear la.1 out)) (G a) := by
    intro l
    induction l with
    | nil => intro _ G hG; exact hG
    | cons p l ih =>
      intro hl G hG
      simp only [List.foldl_cons]
      refine ih (fun q hq => hl q (by simp [hq])) _ ?_
      obtain ⟨φ, hφ, e⟩ := hl p (by simp)
      simp only [e]
      exact (hG.linear p.1).map hφ
  unfold TauNet.mlpForward
  exact h.zipAdd ((key _ (fun p hp => hn p.2 (List.of_mem_zip hp).2) F h).linear _)

/-! ### Lifetimes -/

/-- The eddy lifetime is finite and continuous in the transverse wavenumbers for every fixed `k1 ≠ 0`. -/
def OPSParams.LifetimeContinuous (p : OPSParams) : Prop :=
  ∀ k1 : ℝ, k1 ≠ 0 → ∃ b : ℝ × ℝ → ℝ, Continuous b ∧
    ∀ q : ℝ × ℝ, eddyLifetime p.hyp p.ty p.L p.T ⟨k1, q.1, q.2⟩ = fin (b q)

theorem lifetimeContinuous_of (p : OPSParams)
    (h : match p.ty with
      | .mann => IsMannHyp p.hyp
      | .taunet net => net.Nondegenerate ∧ net.ContActs
      | _ => True) : p.LifetimeContinuous := by
  intro k1 hk
  have hx : ∀ q : ℝ × ℝ, 0 < p.L * vecNorm [k1, q.1, q.2] := fun q =>
    mul_pos p.L_pos (vecNorm_pos_of_k1 (k := ⟨k1, q.1, q.2⟩) hk)
  have hc : Continuous fun q : ℝ × ℝ => p.L * vecNorm [k1, q.1, q.2] := by
    refine continuous_const.mul (ContList.norm (F := fun q : ℝ × ℝ => [k1, q.1, q.2]) ?_)
    exact ⟨[fun _ => k1, fun q => q.1, fun q => q.2], by
      simp only [List.mem_cons, List.not_mem_nil, or_false]
      rintro f (rfl | rfl | rfl) <;> fun_prop, fun q => rfl⟩
  unfold eddyLifetime
  revert h
  cases p.ty with
  | const => intro _; exact ⟨fun _ => p.T * 1, continuous_const, fun q => rfl⟩
  | mann =>
    intro h
    have hp : ∀ q : ℝ × ℝ, 0 < p.hyp (-((p.L * vecNorm [k1, q.1, q.2]) ^ (-2 : ℝ))) := fun q =>
      IsHyp2F1.mann_hyp_pos h (by have := Real.rpow_pos_of_pos (hx q) (-2 : ℝ); linarith)
    refine ⟨fun q => p.T * ((p.L * vecNorm [k1, q.1, q.2]) ^ (-2 / 3 : ℝ) /
      Real.sqrt (p.hyp (-((p.L * vecNorm [k1, q.1, q.2]) ^ (-2 : ℝ))))), ?_, ?_⟩
    · refine continuous_const.mul (Continuous.div (hc.rpow_const fun q => Or.inl (hx q).ne') ?_ fun q =>
        (Real.sqrt_pos.2 (hp q)).ne')
      refine Real.continuous_sqrt.comp ?_
      rw [continuous_iff_continuousAt]
      intro q
      have h1 : ContinuousAt p.hyp (-((p.L * vecNorm [k1, q.1, q.2]) ^ (-2 : ℝ))) :=
        (h.analytic _ (by have := Real.rpow_pos_of_pos (hx q) (-2 : ℝ)
                          simp only [Set.mem_Iic]; linarith)).continuousAt
      exact ContinuousAt.comp (f := fun q : ℝ × ℝ => -((p.L * vecNorm [k1, q.1, q.2]) ^ (-2 : ℝ))) h1
        (hc.rpow_const fun q => Or.inl (hx q).ne').neg.continuousAt
    · intro q
      simp only [fin_mul_fin, mann_pos (hx q) (hp q)]
  | mannApprox c i =>
    intro _
    refine ⟨fun q => p.T * Real.exp (c * Real.log (p.L * vecNorm [k1, q.1, q.2]) + i), ?_, ?_⟩
    · refine continuous_const.mul (Real.continuous_exp.comp ((continuous_const.mul ?_).add continuous_const))
      exact hc.log fun q => (hx q).ne'
    · intro q
      simp only [fin_mul_fin, Mann_linear_exponential_approx, log_fin (hx q), fin_add_fin, exp_fin]
  | twothird =>
    intro _
    refine ⟨fun q => p.T * (p.L * vecNorm [k1, q.1, q.2]) ^ (-2 / 3 : ℝ), ?_, ?_⟩
    · exact continuous_const.mul (hc.rpow_const fun q => Or.inl (hx q).ne')
    · intro q
      simp only [fin_mul_fin, pow_fin _ (hx q)]
  | taunet net =>
    rintro ⟨h, ha⟩
    have hF : ContList fun q : ℝ × ℝ => [k1 * p.L, q.1 * p.L, q.2 * p.L].map fun t => |t| :=
      ContList.map (F := fun q : ℝ × ℝ => [k1 * p.L, q.1 * p.L, q.2 * p.L])
        ⟨[fun _ => k1 * p.L, fun q => q.1 * p.L, fun q => q.2 * p.L], by
          simp only [List.mem_cons, List.not_mem_nil, or_false]
          rintro f (rfl | rfl | rfl) <;> fun_prop, fun q => rfl⟩ continuous_abs
    have hm := (ContList.mlp ha hF).norm
    have hp : ∀ q : ℝ × ℝ, 0 < vecNorm (net.mlpForward ([k1 * p.L, q.1 * p.L, q.2 * p.L].map fun t => |t|)) := by
      intro q
      have hne : ¬ (k1 * p.L = 0 ∧ q.1 * p.L = 0 ∧ q.2 * p.L = 0) := by
        rintro ⟨h1, -, -⟩
        exact (mul_ne_zero hk p.L_pos.ne') h1
      exact lt_of_le_of_ne (vecNorm_nonneg _) (Ne.symm (h _ _ _ hne))
    set m := fun q : ℝ × ℝ => vecNorm (net.mlpForward ([k1 * p.L, q.1 * p.L, q.2 * p.L].map fun t => |t|)) with hmdef
    have h0 : ∀ q, 0 < 1 + m q * m q := fun q => by
      have := mul_pos (hp q) (hp q)
      simp only [hmdef]
      linarith
    refine ⟨fun q => p.T * (0 + m q ^ (net.nu - 2 / 3) / (1 + m q * m q) ^ (net.nu / 2)), ?_, ?_⟩
    · refine continuous_const.mul (continuous_const.add (Continuous.div (hm.rpow_const fun q => Or.inl (hp q).ne') ?_ ?_))
      · exact (continuous_const.add (hm.mul hm)).rpow_const fun q => Or.inl (h0 q).ne'
      · exact fun q => (Real.rpow_pos_of_pos (h0 q) _).ne'
    · intro q
      have : net.forward [k1 * p.L, q.1 * p.L, q.2 * p.L] =
          fin (m q ^ (net.nu - 2 / 3) / (1 + m q * m q) ^ (net.nu / 2)) := rational_pos _ (hp q)
      simp only [this, fin_add_fin, fin_mul_fin]

end
end Verif
