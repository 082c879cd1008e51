import Verif.Props.Convergence
import Verif.Model.Calibration

/-! Continuity of lifetimes, tensors and quadratures in the parameters of the fitted object. -/

namespace Verif
open Fl Filter Topology Verif.Spec

noncomputable section

variable {X : Type} [TopologicalSpace X]

/-! ### Parameter lists -/

theorem ContList.getD {v : X → List ℝ} (h : ContList v) (i : ℕ) (d : ℝ) : Continuous fun x => (v x).getD i d := by
  obtain ⟨fs, hc, e⟩ := h
  simp only [e, List.getD_eq_getElem?_getD, List.getElem?_map]
  rcases hf : fs[i]? with _ | f
  · simpa using continuous_const
  · simpa using hc f (List.mem_of_getElem? hf)

theorem ContList.drop {v : X → List ℝ} (h : ContList v) (i : ℕ) : ContList fun x => (v x).drop i := by
  obtain ⟨fs, hc, e⟩ := h
  exact ⟨fs.drop i, fun f hf => hc f (List.mem_of_mem_drop hf), fun x => by simp [e, List.map_drop]⟩

theorem ContList.take {v : X → List ℝ} (h : ContList v) (i : ℕ) : ContList fun x => (v x).take i := by
  obtain ⟨fs, hc, e⟩ := h
  exact ⟨fs.take i, fun f hf => hc f (List.mem_of_mem_take hf), fun x => by simp [e, List.map_take]⟩

theorem ContList.zipMul {F G : X → List ℝ} (hF : ContList F) (hG : ContList G) :
    Continuous fun x => (List.zipWith (· * ·) (F x) (G x)).sum := by
  obtain ⟨fs, hc, e⟩ := hF
  obtain ⟨gs, hc', e'⟩ := hG
  simp only [e, e']
  clear e e'
  induction fs generalizing gs with
  | nil => simpa using continuous_const
  | cons f fs ih =>
    cases gs with
    | nil => simpa using continuous_const
    | cons g gs =>
      simp only [List.map_cons, List.zipWith_cons_cons, List.sum_cons]
      exact ((hc f (by simp)).mul (hc' g (by simp))).add
        (ih (fun f hf => hc f (by simp [hf])) gs fun g hg => hc' g (by simp [hg]))

theorem ContList.ofFn {n : ℕ} : ContList fun θ : Fin n → ℝ => List.ofFn θ :=
  ⟨List.ofFn fun i θ => θ i, by
    intro f hf
    obtain ⟨i, rfl⟩ := (List.mem_ofFn).1 hf
    exact continuous_apply i, fun θ => by rw [List.map_ofFn]; rfl⟩

theorem ContList.comp {Y : Type} [TopologicalSpace Y] {v : X → List ℝ} (h : ContList v) {φ : Y → X} (hφ : Continuous φ) :
    ContList fun y => v (φ y) := by
  obtain ⟨fs, hc, e⟩ := h
  refine ⟨fs.map fun f y => f (φ y), ?_, fun y => by simp [e]⟩
  intro g hg
  obtain ⟨f, hf, rfl⟩ := List.mem_map.1 hg
  exact (hc f hf).comp hφ

/-- A matrix with continuous entries. -/
def ContMat (W : X → List (List ℝ)) : Prop :=
  ∃ fs : List (X → List ℝ), (∀ f ∈ fs, ContList f) ∧ ∀ x, W x = fs.map fun f => f x

/-- A list of matrices with continuous entries. -/
def ContMats (W : X → List (List (List ℝ))) : Prop :=
  ∃ fs : List (X → List (List ℝ)), (∀ f ∈ fs, ContMat f) ∧ ∀ x, W x = fs.map fun f => f x

theorem cont_fillRows (t : List (List ℝ)) {v : X → List ℝ} (h : ContList v) : ContMat fun x => fillRows t (v x) := by
  induction t generalizing v with
  | nil => exact ⟨[], by simp, fun x => rfl⟩
  | cons r t ih =>
    obtain ⟨fs, hc, e⟩ := ih (h.drop r.length)
    refine ⟨(fun x => (v x).take r.length) :: fs, ?_, fun x => by simp [fillRows, e]⟩
    intro f hf
    rcases List.mem_cons.1 hf with rfl | hf
    · exact h.take _
    · exact hc f hf

theorem cont_fillMats (t : List (List (List ℝ))) {v : X → List ℝ} (h : ContList v) : ContMats fun x => fillMats t (v x) := by
  induction t generalizing v with
  | nil => exact ⟨[], by simp, fun x => rfl⟩
  | cons W t ih =>
    obtain ⟨fs, hc, e⟩ := ih (h.drop W.flatten.length)
    refine ⟨(fun x => fillRows W ((v x).take W.flatten.length)) :: fs, ?_, fun x => by simp only [fillMats, e, List.map_cons]⟩
    intro f hf
    rcases List.mem_cons.1 hf with rfl | hf
    · exact cont_fillRows W (h.take _)
    · exact hc f hf

theorem ContMat.linear {W : X → List (List ℝ)} (hW : ContMat W) {F : X → List ℝ} (hF : ContList F) :
    ContList fun x => Verif.linear (W x) (F x) := by
  obtain ⟨fs, hc, e⟩ := hW
  refine ⟨fs.map fun row x => (List.zipWith (· * ·) (row x) (F x)).sum, ?_, fun x => by simp [e, Verif.linear]⟩
  intro g hg
  obtain ⟨row, hr, rfl⟩ := List.mem_map.1 hg
  exact (hc row hr).zipMul hF

theorem ContMats.mlp {net : X → TauNet} (hl : ContMats fun x => (net x).linears) {acts : List (List ℝ → List ℝ)}
    (ha : ∀ x, (net x).activations = acts) (hc : ∀ φ ∈ acts, ∃ a : ℝ → ℝ, Continuous a ∧ φ = List.map a)
    {F : X → List ℝ} (hF : ContList F) : ContList fun x => (net x).mlpForward (F x) := by
  obtain ⟨fs, hfs, e⟩ := hl
  have key : ∀ (ms : List (X → List (List ℝ))) (as : List (List ℝ → List ℝ)), (∀ f ∈ ms, ContMat f) →
      (∀ φ ∈ as, ∃ a : ℝ → ℝ, Continuous a ∧ φ = List.map a) → ∀ G : X → List ℝ, ContList G →
      ContList fun x => ((ms.map fun f => f x).zip as).foldl (fun out la => la.2 (Verif.linear la.1 out)) (G x) := by
    intro ms
    induction ms with
    | nil => intro as _ _ G hG; simpa using hG
    | cons m ms ih =>
      intro as hms has G hG
      cases as with
      | nil => simpa using hG
      | cons φ as =>
        simp only [List.map_cons, List.zip_cons_cons, List.foldl_cons]
        refine ih as (fun f hf => hms f (by simp [hf])) (fun ψ hψ => has ψ (by simp [hψ])) _ ?_
        obtain ⟨a, hac, rfl⟩ := has φ (by simp)
        exact ((hms m (by simp)).linear hG).map hac
  unfold TauNet.mlpForward
  simp only [e, ha]
  refine hF.zipAdd (ContMat.linear ?_ ?_)
  · rcases List.eq_nil_or_concat fs with rfl | ⟨l, f, rfl⟩
    · exact ⟨[], by simp, fun x => by simp⟩
    · have := hfs f (by simp)
      have e2 : (fun x => (List.map (fun f => f x) (l.concat f)).getLastD []) = f := by
        funext x; simp [List.concat_eq_append]
      simpa only [e2] using this
  · have := key fs.dropLast acts (fun f hf => hfs f (List.mem_of_mem_dropLast hf)) hc F hF
    simpa only [List.map_dropLast] using this

/-! ### The fitted object -/

/-- The lifetime model is sound: the hypergeometric function is the hypergeometric function; the network sends no non-zero
wavevector to zero and its activations are continuous. -/
def OPS.Sound (s : OPS) : Prop := match s.kind with
  | .mann => IsMannHyp s.hyp
  | .taunet net => net.Nondegenerate ∧ net.ContActs
  | _ => True

theorem OPS.Sound.continuous {s : OPS} (h : s.Sound) : s.params.LifetimeContinuous := by
  apply lifetimeContinuous_of
  unfold OPS.Sound at h
  have e : s.params.ty = s.initApprox.ty := rfl
  have e' : s.params.hyp = s.hyp := rfl
  rw [e, e']
  unfold OPS.ty
  rw [(initApprox_fields s).2.1]
  revert h
  cases s.kind <;> simp

theorem OPS.Sound.finite {s : OPS} (h : s.Sound) : s.params.LifetimeFinite := lifetimeFinite_of_continuous h.continuous

/-- At every wavevector with `k1 ≠ 0` the eddy lifetime depends continuously on the parameter vector and is positive. -/
theorem lifetime_param (s : OPS) (ln : Bool) {v : X → List ℝ} (hv : ContList v) (hs : ∀ x, (s.setVec ln (v x)).Sound)
    {k1 : ℝ} (hk : k1 ≠ 0) (k2 k3 : ℝ) :
    ∃ b : X → ℝ, Continuous b ∧ ∀ x, 0 < b x ∧
      eddyLifetime (s.setVec ln (v x)).params.hyp (s.setVec ln (v x)).params.ty (s.setVec ln (v x)).params.L
        (s.setVec ln (v x)).params.T ⟨k1, k2, k3⟩ = fin (b x) := by
  set L : X → ℝ := fun x => Real.exp ((v x).getD 0 s.logL) with hL
  set T : X → ℝ := fun x => Real.exp ((v x).getD 1 s.logT) with hT
  have cL : Continuous L := Real.continuous_exp.comp (hv.getD 0 _)
  have cT : Continuous T := Real.continuous_exp.comp (hv.getD 1 _)
  have pL : ∀ x, 0 < L x := fun x => Real.exp_pos _
  have pT : ∀ x, 0 < T x := fun x => Real.exp_pos _
  have eL : ∀ x, (s.setVec ln (v x)).params.L = L x := fun x => rfl
  have eT : ∀ x, (s.setVec ln (v x)).params.T = T x := fun x => rfl
  have eH : ∀ x, (s.setVec ln (v x)).params.hyp = s.hyp := fun x => rfl
  have et : ∀ x, (s.setVec ln (v x)).params.ty = (s.setVec ln (v x)).initApprox.ty := fun x => rfl
  simp only [eL, eT, eH, et]
  set n := vecNorm [k1, k2, k3] with hn
  have pn : 0 < n := vecNorm_pos_of_k1 (k := ⟨k1, k2, k3⟩) hk
  have cx : Continuous fun x => L x * n := cL.mul continuous_const
  have px : ∀ x, 0 < L x * n := fun x => mul_pos (pL x) pn
  unfold eddyLifetime
  simp only [← hn]
  rcases hkind : s.kind with _ | _ | _ | _ | net
  · have e : ∀ x, (s.setVec ln (v x)).initApprox.ty = .const := fun x => by
      simp [OPS.ty, OPS.initApprox, OPS.setVec, hkind]
    simp only [e]
    exact ⟨fun x => T x * 1, cT.mul continuous_const, fun x => ⟨by simpa using pT x, rfl⟩⟩
  · have e : ∀ x, (s.setVec ln (v x)).initApprox.ty = .mann := fun x => by
      simp [OPS.ty, OPS.initApprox, OPS.setVec, hkind]
    have hyp : ∀ _ : X, IsMannHyp s.hyp := fun x => by
      have := hs x
      simpa [OPS.Sound, OPS.setVec, hkind] using this
    have hp : ∀ x, 0 < s.hyp (-((L x * n) ^ (-2 : ℝ))) := fun x =>
      IsHyp2F1.mann_hyp_pos (hyp x) (by have := Real.rpow_pos_of_pos (px x) (-2 : ℝ); linarith)
    simp only [e]
    refine ⟨fun x => T x * ((L x * n) ^ (-2 / 3 : ℝ) / Real.sqrt (s.hyp (-((L x * n) ^ (-2 : ℝ))))), ?_, fun x => ⟨?_, ?_⟩⟩
    · refine cT.mul (Continuous.div (cx.rpow_const fun x => Or.inl (px x).ne') ?_ fun x => (Real.sqrt_pos.2 (hp x)).ne')
      refine Real.continuous_sqrt.comp ?_
      rw [continuous_iff_continuousAt]
      intro x
      have h1 : ContinuousAt s.hyp (-((L x * n) ^ (-2 : ℝ))) :=
        ((hyp x).analytic _ (by have := Real.rpow_pos_of_pos (px x) (-2 : ℝ)
                                simp only [Set.mem_Iic]; linarith)).continuousAt
      exact ContinuousAt.comp (f := fun x => -((L x * n) ^ (-2 : ℝ))) h1
        (cx.rpow_const fun x => Or.inl (px x).ne').neg.continuousAt
    · exact mul_pos (pT x) (div_pos (Real.rpow_pos_of_pos (px x) _) (Real.sqrt_pos.2 (hp x)))
    · simp only [fin_mul_fin, mann_pos (px x) (hp x)]
  · obtain ⟨c, i, e⟩ : ∃ c i, ∀ x, (s.setVec ln (v x)).initApprox.ty = .mannApprox c i := by
      refine ⟨(s.initApprox.approx.getD (0, 0)).1, (s.initApprox.approx.getD (0, 0)).2, fun x => ?_⟩
      have : (s.setVec ln (v x)).initApprox.approx = s.initApprox.approx := by
        simp [OPS.initApprox, OPS.setVec, hkind]
      unfold OPS.ty
      rw [this]
      simp [OPS.initApprox, OPS.setVec, hkind]
    simp only [e]
    refine ⟨fun x => T x * Real.exp (c * Real.log (L x * n) + i), ?_, fun x => ⟨mul_pos (pT x) (Real.exp_pos _), ?_⟩⟩
    · refine cT.mul (Real.continuous_exp.comp ((continuous_const.mul ?_).add continuous_const))
      exact cx.log fun x => (px x).ne'
    · simp only [fin_mul_fin, Mann_linear_exponential_approx, log_fin (px x), fin_add_fin, exp_fin]
  · have e : ∀ x, (s.setVec ln (v x)).initApprox.ty = .twothird := fun x => by
      simp [OPS.ty, OPS.initApprox, OPS.setVec, hkind]
    simp only [e]
    refine ⟨fun x => T x * (L x * n) ^ (-2 / 3 : ℝ), cT.mul (cx.rpow_const fun x => Or.inl (px x).ne'), fun x =>
      ⟨mul_pos (pT x) (Real.rpow_pos_of_pos (px x) _), ?_⟩⟩
    simp only [fin_mul_fin, pow_fin _ (px x)]
  · set N : X → TauNet := fun x => net.setVec ln ((v x).drop s.headLen) with hN
    have e : ∀ x, (s.setVec ln (v x)).initApprox.ty = .taunet (N x) := fun x => by
      simp [OPS.ty, OPS.initApprox, OPS.setVec, hkind, hN]
    have hs' : ∀ x, (N x).Nondegenerate ∧ (N x).ContActs := fun x => by
      have := hs x
      simpa [OPS.Sound, OPS.setVec, hkind] using this
    have hF : ContList fun x => [k1 * L x, k2 * L x, k3 * L x].map fun t => |t| :=
      ContList.map (F := fun x => [k1 * L x, k2 * L x, k3 * L x])
        ⟨[fun x => k1 * L x, fun x => k2 * L x, fun x => k3 * L x], by
          simp only [List.mem_cons, List.not_mem_nil, or_false]
          rintro f (rfl | rfl | rfl) <;> fun_prop, fun x => rfl⟩ continuous_abs
    simp only [e]
    by_cases hne : Nonempty X
    swap
    · exact ⟨fun _ => 0, continuous_const, fun x => absurd ⟨x⟩ hne⟩
    obtain ⟨x0⟩ := hne
    have hm := (ContMats.mlp (net := N) (cont_fillMats net.linears (hv.drop s.headLen)) (acts := net.activations)
      (fun x => rfl) (hs' x0).2 hF).norm
    have cnu : Continuous fun x => (N x).nu := by
      have : (fun x => (N x).nu) = fun x => if ln then ((v x).drop s.headLen).getD (net.linears.map List.flatten).flatten.length
          net.nu else net.nu := by
        funext x
        simp only [hN, TauNet.setVec, List.headD_eq_head?_getD, List.head?_drop, List.getD_eq_getElem?_getD]
      rw [this]
      cases ln
      · exact continuous_const
      · exact (hv.drop _).getD _ _
    set m := fun x => vecNorm ((N x).mlpForward ([k1 * L x, k2 * L x, k3 * L x].map fun t => |t|)) with hmdef
    have hp : ∀ x, 0 < m x := by
      intro x
      have hne : ¬ (k1 * L x = 0 ∧ k2 * L x = 0 ∧ k3 * L x = 0) := by
        rintro ⟨h1, -, -⟩
        exact (mul_ne_zero hk (pL x).ne') h1
      exact lt_of_le_of_ne (vecNorm_nonneg _) (Ne.symm ((hs' x).1 _ _ _ hne))
    have h0 : ∀ x, 0 < 1 + m x * m x := fun x => by
      have := mul_pos (hp x) (hp x)
      linarith
    refine ⟨fun x => T x * (0 + m x ^ ((N x).nu - 2 / 3) / (1 + m x * m x) ^ ((N x).nu / 2)), ?_, fun x => ⟨?_, ?_⟩⟩
    · refine cT.mul (continuous_const.add (Continuous.div ?_ ?_ ?_))
      · exact hm.rpow (cnu.sub continuous_const) fun x => Or.inl (hp x).ne'
      · exact (continuous_const.add (hm.mul hm)).rpow (cnu.div_const _) fun x => Or.inl (h0 x).ne'
      · exact fun x => (Real.rpow_pos_of_pos (h0 x) _).ne'
    · simp only [zero_add]
      exact mul_pos (pT x) (div_pos (Real.rpow_pos_of_pos (hp x) _) (Real.rpow_pos_of_pos (h0 x) _))
    · have : (N x).forward [k1 * L x, k2 * L x, k3 * L x] =
          fin (m x ^ ((N x).nu - 2 / 3) / (1 + m x * m x) ^ ((N x).nu / 2)) := rational_pos _ (hp x)
      simp only [this, fin_add_fin, fin_mul_fin]

theorem energy_param (s : OPS) (ln : Bool) {v : X → List ℝ} (hv : ContList v) {κ : X → ℝ} (hκ : Continuous κ)
    (h0 : ∀ x, 0 < κ x) :
    Continuous fun x => Spec.energyOf (s.setVec ln (v x)).params.L (s.setVec ln (v x)).params.M (s.setVec ln (v x)).params.sp
      (κ x) := by
  set L : X → ℝ := fun x => Real.exp ((v x).getD 0 s.logL) with hL
  set M : X → ℝ := fun x => Real.exp ((v x).getD 2 s.logM) with hM
  have cL : Continuous L := Real.continuous_exp.comp (hv.getD 0 _)
  have cM : Continuous M := Real.continuous_exp.comp (hv.getD 2 _)
  have pL : ∀ x, 0 < L x := fun x => Real.exp_pos _
  have eL : ∀ x, (s.setVec ln (v x)).params.L = L x := fun x => rfl
  have eM : ∀ x, (s.setVec ln (v x)).params.M = M x := fun x => rfl
  simp only [eL, eM]
  rcases hsp : s.sp with _ | ⟨p, q⟩
  · have e : ∀ x, (s.setVec ln (v x)).params.sp = .vkLike := fun x => by simp [OPS.params, OPS.setVec, hsp]
    simp only [e, Spec.energyOf, vkE]
    have hp : ∀ x, 0 < 1 + (κ x * L x) ^ 2 := fun x => by positivity
    refine (cM.mul (hκ.rpow_const fun x => Or.inl (h0 x).ne')).mul ?_
    refine Continuous.rpow_const ((hκ.mul cL).div ?_ fun x => (Real.sqrt_pos.2 (hp x)).ne') fun x => Or.inl ?_
    · exact Real.continuous_sqrt.comp (continuous_const.add ((hκ.mul cL).pow 2))
    · exact (div_pos (mul_pos (h0 x) (pL x)) (Real.sqrt_pos.2 (hp x))).ne'
  · have e : ∀ x, (s.setVec ln (v x)).params.sp = .learnable ((v x).getD 3 p) ((v x).getD 4 q) := fun x => by
      simp [OPS.params, OPS.setVec, hsp]
    simp only [e, Spec.energyOf, learnE]
    have hp : ∀ x, 0 < 1 + (L x * κ x) ^ 2 := fun x => by positivity
    refine (cM.mul (cL.rpow_const fun x => Or.inl (pL x).ne')).mul (Continuous.div ?_ ?_ fun x =>
      (Real.rpow_pos_of_pos (hp x) _).ne')
    · exact (cL.mul hκ).rpow (hv.getD 3 _) fun x => Or.inl (mul_pos (pL x) (h0 x)).ne'
    · exact (continuous_const.add ((cL.mul hκ).pow 2)).rpow (hv.getD 4 _) fun x => Or.inl (hp x).ne'

theorem sheared_energy {k : K3} (h : k.k1 ≠ 0) (E : ℝ → ℝ) (b : ℝ) (i j : Fin 3) :
    shearedTensor E k.vec b i j = E (Real.sqrt (kk0R k b)) * shearedTensor (fun _ => 1) k.vec b i j := by
  rw [shearedTensor_eq h, shearedTensor_eq h]; ring

/-- The spectral tensor at a fixed wavevector is continuous in the parameters. -/
theorem fitTensor_param (s : OPS) (ln : Bool) {v : X → List ℝ} (hv : ContList v) (hs : ∀ x, (s.setVec ln (v x)).Sound)
    {k1 : ℝ} (hk : k1 ≠ 0) (k2 k3 : ℝ) (i j : Fin 3) :
    Continuous fun x => Spec.fitTensor (s.setVec ln (v x)).params k1 k2 k3 i j := by
  obtain ⟨b, hb, e⟩ := lifetime_param s ln hv hs hk k2 k3
  unfold Spec.fitTensor
  simp only [(e _).2, toReal_fin]
  have e1 : ∀ x, shearedTensor (energyOf (s.setVec ln (v x)).params.L (s.setVec ln (v x)).params.M (s.setVec ln (v x)).params.sp)
      ![k1, k2, k3] (b x) i j = energyOf (s.setVec ln (v x)).params.L (s.setVec ln (v x)).params.M (s.setVec ln (v x)).params.sp
        (Real.sqrt (kk0R ⟨k1, k2, k3⟩ (b x))) * shearedTensor (fun _ => 1) (K3.vec ⟨k1, k2, k3⟩) (b x) i j := fun x =>
    sheared_energy (k := ⟨k1, k2, k3⟩) hk _ _ _ _
  simp only [e1]
  refine Continuous.mul (energy_param s ln hv ?_ fun x => Real.sqrt_pos.2 (kk0R_pos (k := ⟨k1, k2, k3⟩) hk)) ?_
  · exact Real.continuous_sqrt.comp (cont_kk0R continuous_const continuous_const hb)
  · exact cont_sheared hk continuous_const continuous_const hb continuousOn_const i j

/-! ### Quadratures -/

theorem cont_trapz {g : List ℝ} {f : X → ℝ → ℝ} (h : ∀ y ∈ g, Continuous fun x => f x y) :
    Continuous fun x => trapz g (g.map (f x)) := by
  induction g with
  | nil => simpa [trapz] using continuous_const
  | cons a l ih =>
    cases l with
    | nil => simpa [trapz] using continuous_const
    | cons b l =>
      simp only [trapz_cons2, smul_eq_mul]
      exact (continuous_const.mul ((h a (by simp)).add (h b (by simp)))).add (ih fun y hy => h y (by simp [hy]))

theorem cont_quad23 {g2 g3 : List ℝ} {f : X → ℝ → ℝ → ℝ} (h : ∀ y ∈ g2, ∀ z ∈ g3, Continuous fun x => f x y z) :
    Continuous fun x => quad23 g2 g3 (f x) := by
  unfold quad23
  exact cont_trapz (f := fun x y => trapz g3 (g3.map (f x y))) fun y hy => cont_trapz fun z hz => h y hy z hz

end
end Verif
