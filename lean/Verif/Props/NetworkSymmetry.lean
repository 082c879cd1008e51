import Verif.Props.Gradients
import Verif.Props.Diagnostics

/-!
# C107: what the data can and cannot say about the weights of the network
-/

namespace Verif
open Fl

noncomputable section
open Classical

/-- Layer `i` multiplied by the `i`-th factor. -/
def Spec.scaleLayers (cs : List ℝ) (W : List (List (List ℝ))) : List (List (List ℝ)) :=
  List.zipWith (fun c M => M.map fun row => row.map fun x => c * x) cs W

/-- One positive factor for every layer, with product 1. -/
structure Spec.Balancing (cs : List ℝ) (W : List (List (List ℝ))) : Prop where
  length : cs.length = W.length
  pos : ∀ c ∈ cs, 0 < c
  prod : cs.prod = 1

/-- Sum of the squared weights of a layer. -/
def Spec.layerSq (W : List (List (List ℝ))) (i : ℕ) : ℝ := ((W.getD i []).flatten.map fun x => x ^ 2).sum

theorem linear_arg (t : ℝ) (W : List (List ℝ)) (x : List ℝ) :
    linear W (x.map fun a => t * a) = (linear W x).map fun a => t * a := by
  unfold linear
  rw [List.map_map]
  refine List.map_congr_left fun row _ => ?_
  simp only [Function.comp]
  clear * -
  induction row generalizing x with
  | nil => simp
  | cons r row ih =>
    cases x with
    | nil => simp
    | cons a x => simp [ih]; ring

theorem linear_weights (t : ℝ) (W : List (List ℝ)) (x : List ℝ) :
    linear (W.map fun row => row.map fun a => t * a) x = (linear W x).map fun a => t * a := by
  unfold linear
  rw [List.map_map, List.map_map]
  refine List.map_congr_left fun row _ => ?_
  simp only [Function.comp]
  clear * -
  induction row generalizing x with
  | nil => simp
  | cons r row ih =>
    cases x with
    | nil => simp
    | cons a x => simp [ih]; ring

theorem relu_scale {t : ℝ} (ht : 0 ≤ t) (x : List ℝ) : reluVec (x.map fun a => t * a) = (reluVec x).map fun a => t * a := by
  unfold reluVec
  rw [List.map_map, List.map_map]
  refine List.map_congr_left fun a _ => ?_
  simp only [Function.comp]
  rw [mul_max_of_nonneg _ _ ht, mul_zero]

theorem fold_arg {t : ℝ} (ht : 0 ≤ t) (l : List (List (List ℝ) × (List ℝ → List ℝ))) (h : ∀ p ∈ l, p.2 = reluVec) (x : List ℝ) :
    l.foldl (fun out la => la.2 (linear la.1 out)) (x.map fun a => t * a) =
      (l.foldl (fun out la => la.2 (linear la.1 out)) x).map fun a => t * a := by
  induction l generalizing x with
  | nil => rfl
  | cons p l ih =>
    simp only [List.foldl_cons]
    rw [h p (by simp), linear_arg, relu_scale ht]
    exact ih (fun q hq => h q (by simp [hq])) _

theorem fold_weights (cs : List ℝ) (Ws : List (List (List ℝ))) (acts : List (List ℝ → List ℝ)) (hl : cs.length = Ws.length)
    (ha : Ws.length ≤ acts.length) (hact : ∀ f ∈ acts, f = reluVec) (hp : ∀ c ∈ cs, 0 < c) (x : List ℝ) :
    ((Spec.scaleLayers cs Ws).zip acts).foldl (fun out la => la.2 (linear la.1 out)) x =
      ((Ws.zip acts).foldl (fun out la => la.2 (linear la.1 out)) x).map fun a => cs.prod * a := by
  induction Ws generalizing cs acts x with
  | nil =>
    have : cs = [] := List.length_eq_zero_iff.1 (by simpa using hl)
    subst this
    simp [Spec.scaleLayers]
  | cons W Ws ih =>
    rcases cs with _ | ⟨c, cs⟩
    · simp at hl
    rcases acts with _ | ⟨f, acts⟩
    · simp at ha
    simp only [List.length_cons, Nat.add_right_cancel_iff] at hl
    simp only [List.length_cons, Nat.add_le_add_iff_right] at ha
    have hc : 0 < c := hp c (by simp)
    show ((Spec.scaleLayers cs Ws).zip acts).foldl _ (f (linear (W.map fun row => row.map fun a => c * a) x)) = _
    rw [hact f (by simp), linear_weights, relu_scale hc.le, ih cs acts hl ha (fun g hg => hact g (by simp [hg]))
      (fun d hd => hp d (by simp [hd])), fold_arg hc.le _ (fun p hp => hact _ (List.mem_cons_of_mem _ (List.of_mem_zip hp).2))]
    simp only [List.zip_cons_cons, List.foldl_cons, List.map_map, List.prod_cons, hact f (by simp)]
    refine List.map_congr_left fun a _ => ?_
    simp only [Function.comp]
    ring

/-- **C107** With ReLU activations (the default) multiplying the layers of the network by positive factors with product 1 does not change the
eddy lifetime at any wavevector. -/
theorem C107_scaling (net : TauNet) (hact : ∀ f ∈ net.activations, f = reluVec)
    (hlen : net.linears.length ≤ net.activations.length + 1) {cs : List ℝ} (hcs : Spec.Balancing cs net.linears) (k : List ℝ) :
    ({ net with linears := Spec.scaleLayers cs net.linears } : TauNet).forward k = net.forward k := by
  have key : ∀ x, ({ net with linears := Spec.scaleLayers cs net.linears } : TauNet).mlpForward x = net.mlpForward x := by
    intro x
    obtain ⟨h1, h2, h3⟩ := hcs
    unfold TauNet.mlpForward
    simp only
    rcases List.eq_nil_or_concat net.linears with h0 | ⟨Ws, W, h0⟩
    · have : cs = [] := List.length_eq_zero_iff.1 (by rw [h1, h0]; rfl)
      simp [this, h0, Spec.scaleLayers]
    rcases List.eq_nil_or_concat cs with hc | ⟨ds, d, hc⟩
    · rw [hc, h0] at h1; simp at h1
    rw [h0] at h1 hlen ⊢
    subst hc
    simp only [List.concat_eq_append, List.length_append, List.length_cons, List.length_nil, zero_add,
      Nat.add_right_cancel_iff, List.prod_append, List.prod_cons, List.prod_nil, mul_one, Nat.add_le_add_iff_right] at h1 h3 hlen
    have hs : Spec.scaleLayers (ds ++ [d]) (Ws ++ [W]) = Spec.scaleLayers ds Ws ++ [W.map fun row => row.map fun a => d * a] := by
      unfold Spec.scaleLayers
      rw [List.zipWith_append h1]
      rfl
    simp only [List.concat_eq_append, hs, List.dropLast_concat, List.getLastD_concat]
    rw [fold_weights ds Ws net.activations h1 hlen hact (fun c hc => h2 c (by simp [hc])), linear_weights, linear_arg, List.map_map]
    congr 1
    refine Eq.trans (List.map_congr_left fun a _ => ?_) (List.map_id _)
    simp only [Function.comp, id]
    rw [← mul_assoc, mul_comm d, h3, one_mul]
  unfold TauNet.forward
  rw [key]

theorem linear_ofFn {m n : ℕ} (β : Fin m → Fin n → ℝ) (v : Fin n → ℝ) :
    linear (List.ofFn fun i => List.ofFn (β i)) (List.ofFn v) = List.ofFn fun i => ∑ a, β i a * v a := by
  unfold linear
  rw [List.map_ofFn]
  congr 1
  funext i
  simp only [Function.comp]
  have : List.zipWith (· * ·) (List.ofFn (β i)) (List.ofFn v) = List.ofFn fun a => β i a * v a := by
    refine List.ext_getElem (by simp) fun k h1 h2 => by simp
  rw [this, List.sum_ofFn]

/-- **C107** Exchanging the hidden units of a layer (the rows of one matrix and, in the same way, the columns of the next) does not change
the eddy lifetime, for every activation that acts entry by entry. -/
theorem C107_permutation (pre post : List (List (List ℝ))) {m n : ℕ} (A : Fin n → List ℝ) (B : Fin m → Fin n → ℝ)
    (σ : Equiv.Perm (Fin n)) (acts : List (List ℝ → List ℝ)) {f : ℝ → ℝ} (hf : acts[pre.length]? = some (List.map f))
    (ha : pre.length + 2 + post.length ≤ acts.length + 1) (nu : ℝ) (k : List ℝ) :
    (TauNet.mk (pre ++ List.ofFn (A ∘ σ) :: (List.ofFn fun i => List.ofFn (B i ∘ σ)) :: post) acts nu).forward k =
      (TauNet.mk (pre ++ List.ofFn A :: (List.ofFn fun i => List.ofFn (B i)) :: post) acts nu).forward k := by
  -- the two layers together
  have hAB : ∀ y : List ℝ, linear (List.ofFn fun i => List.ofFn (B i ∘ σ)) ((linear (List.ofFn (A ∘ σ)) y).map f) =
      linear (List.ofFn fun i => List.ofFn (B i)) ((linear (List.ofFn A) y).map f) := by
    intro y
    have e : ∀ A : Fin n → List ℝ, (linear (List.ofFn A) y).map f =
        List.ofFn fun a => f ((List.zipWith (· * ·) (A a) y).sum) := by
      intro A
      unfold linear
      rw [List.map_ofFn, List.map_ofFn]
      rfl
    rw [e, e, linear_ofFn (fun i => B i ∘ σ), linear_ofFn]
    congr 1
    funext i
    exact Equiv.sum_comp σ fun a => B i a * f ((List.zipWith (· * ·) (A a) y).sum)
  have key : ∀ x, (TauNet.mk (pre ++ List.ofFn (A ∘ σ) :: (List.ofFn fun i => List.ofFn (B i ∘ σ)) :: post) acts nu).mlpForward x =
      (TauNet.mk (pre ++ List.ofFn A :: (List.ofFn fun i => List.ofFn (B i)) :: post) acts nu).mlpForward x := by
    intro x
    obtain ⟨acts1, acts2, hacts, hlen⟩ : ∃ a1 a2, acts = a1 ++ List.map f :: a2 ∧ a1.length = pre.length := by
      have hlt : pre.length < acts.length := (List.getElem?_eq_some_iff.1 hf).1
      refine ⟨acts.take pre.length, acts.drop (pre.length + 1), ?_, by simp; omega⟩
      have h1 := (List.getElem?_eq_some_iff.1 hf).2
      rw [← h1, ← List.drop_eq_getElem_cons, List.take_append_drop]
    subst hacts
    unfold TauNet.mlpForward
    simp only
    rcases post with _ | ⟨C, post⟩
    · have d : ∀ X Y : List (List ℝ), (pre ++ [X, Y]).dropLast = pre ++ [X] ∧ (pre ++ [X, Y]).getLastD [] = Y := by
        intro X Y
        rw [show pre ++ [X, Y] = (pre ++ [X]) ++ [Y] by simp]
        exact ⟨List.dropLast_concat, List.getLastD_concat⟩
      rw [(d _ _).1, (d _ _).2, (d _ _).1, (d _ _).2]
      rw [List.zip_append hlen.symm, List.zip_append hlen.symm, List.foldl_append, List.foldl_append]
      simp only [List.zip_cons_cons, List.zip_nil_left, List.foldl_cons, List.foldl_nil]
      rw [hAB]
    · have d : ∀ X Y : List (List ℝ), (pre ++ X :: Y :: C :: post).dropLast = pre ++ X :: Y :: (C :: post).dropLast ∧
          (pre ++ X :: Y :: C :: post).getLastD [] = (C :: post).getLastD [] := by
        intro X Y
        constructor
        · rw [List.dropLast_append_of_ne_nil (by simp)]
          simp
        · rw [List.getLastD_eq_getLast?, List.getLastD_eq_getLast?, List.getLast?_append]
          rw [List.getLast?_cons_cons, List.getLast?_cons_cons, List.getLast?_eq_some_getLast (l := C :: post) (by simp)]
          rfl
      rw [(d _ _).1, (d _ _).2, (d _ _).1, (d _ _).2]
      rw [List.zip_append hlen.symm, List.zip_append hlen.symm, List.foldl_append, List.foldl_append]
      rcases acts2 with _ | ⟨g, acts2⟩
      · simp at ha
        omega
      · simp only [List.zip_cons_cons, List.foldl_cons]
        rw [hAB]
  unfold TauNet.forward
  rw [key]

/-- The object with another network. -/
def Spec.withNet (s : OPS) (net : TauNet) : OPS := { s with kind := .taunet net }

theorem opsPhi_net {p : OPSParams} {net net' : TauNet} (h : ∀ k, net'.forward k = net.forward k) (hp : p.ty = .taunet net) (k : K3) :
    opsPhi { p with ty := .taunet net' } k = opsPhi p k ∧ cohPhi { p with ty := .taunet net' } k = cohPhi p k := by
  have e : eddyLifetime p.hyp (.taunet net') p.L p.T k = eddyLifetime p.hyp p.ty p.L p.T k := by
    rw [hp]
    unfold eddyLifetime
    simp only [h]
  unfold opsPhi cohPhi
  simp only
  have e' : eddyLifetime p.hyp (.taunet net') (OPSParams.L { p with ty := .taunet net' }) (OPSParams.T { p with ty := .taunet net' }) k =
      eddyLifetime p.hyp p.ty p.L p.T k := e
  rw [e']
  exact ⟨rfl, rfl⟩

theorem params_withNet (s : OPS) (net : TauNet) : (Spec.withNet s net).params = { s.params with ty := .taunet net } := by
  unfold OPS.params
  have : (Spec.withNet s net).initApprox.ty = .taunet net := by
    unfold OPS.ty
    rw [(initApprox_fields _).2.1]
    rfl
  rw [this]
  rfl

theorem params_ty {s : OPS} {net : TauNet} (hk : s.kind = .taunet net) : s.params.ty = .taunet net := by
  unfold OPS.params OPS.ty
  simp only
  rw [(initApprox_fields _).2.1, hk]

/-- **C107** Two networks with the same lifetime cannot be told apart by spectra or coherence. -/
theorem C107_predictions {s : OPS} {net net' : TauNet} (hk : s.kind = .taunet net) (h : ∀ k, net'.forward k = net.forward k) :
    (∀ k1s, (OPS.forward k1s (Spec.withNet s net')).1 = (OPS.forward k1s s).1) ∧
    ∀ k1s seps, (OPS.SpectralCoherence k1s seps (Spec.withNet s net')).1 = (OPS.SpectralCoherence k1s seps s).1 := by
  have hphi := opsPhi_net h (params_ty hk)
  constructor
  · intro k1s
    rw [forward_eq, forward_eq, params_withNet]
    simp only [fun k => (hphi k).1]
    rfl
  · intro k1s seps
    rw [coherence_eq, coherence_eq, params_withNet]
    unfold cohEntry
    simp only [fun k => (hphi k).2]
    rfl

theorem closureCoherence_net (cfg : TrainCfg) {s : OPS} {net net' : TauNet} (hk : s.kind = .taunet net)
    (h : ∀ k, net'.forward k = net.forward k) :
    (closureCoherence cfg (OPS.forward cfg.k1s (Spec.withNet s net')).2).1 = (closureCoherence cfg (OPS.forward cfg.k1s s).2).1 := by
  unfold closureCoherence
  rcases cfg.coh with _ | c
  · rfl
  have f1 := forward_same cfg.k1s s
  have f2 := forward_same cfg.k1s (Spec.withNet s net')
  have u1 : (OPS.forward cfg.k1s s).2.cohGridUsed = s.cohGridUsed := by
    unfold OPS.cohGridUsed; rw [f1.2.2.2.2, f1.2.1]
  have u2 : (OPS.forward cfg.k1s (Spec.withNet s net')).2.cohGridUsed = s.cohGridUsed := by
    unfold OPS.cohGridUsed; rw [f2.2.2.2.2, f2.2.1]; rfl
  have p1 := params_congr f1.1 f1.2.1.symm f1.2.2.1.symm f1.2.2.2.1.symm
  have p2 := params_congr f2.1 f2.2.1.symm f2.2.2.1.symm f2.2.2.2.1.symm
  have c1 := (C45_fill cfg.phys c.freqs c.seps (OPS.forward cfg.k1s s).2).1
  have c2 := (C45_fill cfg.phys c.freqs c.seps (OPS.forward cfg.k1s (Spec.withNet s net')).2).1
  rw [u1, ← p1] at c1
  rw [u2, ← p2, params_withNet] at c2
  have hphi := opsPhi_net h (params_ty hk)
  unfold cohEntry at c1 c2
  simp only [fun k => (hphi k).2] at c2
  rw [← c1] at c2
  simp only
  rcases e1 : computeModelCoherence cfg.phys c.freqs c.seps (OPS.forward cfg.k1s s).2 with ⟨q, w⟩
  rcases e2 : computeModelCoherence cfg.phys c.freqs c.seps (OPS.forward cfg.k1s (Spec.withNet s net')).2 with ⟨q', w'⟩
  rw [e1, e2] at c2
  simp only at c2
  subst c2
  cases q' <;> rfl

theorem recLoss_net (cfg : TrainCfg) {s : OPS} {net net' : TauNet} (hk : s.kind = .taunet net)
    (h : ∀ k, net'.forward k = net.forward k) : ∃ X : Except PyErr Fl,
    (recLoss cfg s s = X >>= fun x => regTerm cfg.loss ⟨[], [], genTheta cfg s, none⟩ >>= fun r => .ok (x + r)) ∧
    (recLoss cfg (Spec.withNet s net') (Spec.withNet s net') =
      X >>= fun x => regTerm cfg.loss ⟨[], [], genTheta cfg (Spec.withNet s net'), none⟩ >>= fun r => .ok (x + r)) := by
  have hy : OPS.recForward cfg.k1s (Spec.withNet s net') (Spec.withNet s net') = OPS.recForward cfg.k1s s s := by
    have := (C107_predictions hk h).1 cfg.k1s
    rw [recForward_diag, recForward_diag] at this
    exact Except.ok.inj this
  unfold recLoss
  rw [closureCoherence_net cfg hk h, hy]
  rcases (closureCoherence cfg (OPS.forward cfg.k1s s).2).1 with e | coh
  · exact ⟨.error e, rfl, rfl⟩
  simp only
  set y := (OPS.recForward cfg.k1s s s).take cfg.prob.nc.toNat
  refine ⟨(do
    let mse ← mseTerm y cfg.target
    let c ← cohTerm cfg.loss ⟨y, cfg.target, .none, coh⟩
    let p1 ← pen1Term cfg.loss cfg.k1s cfg.phys.zref ⟨y, cfg.target, .none, coh⟩
    let p2 ← pen2Term cfg.loss cfg.k1s cfg.phys.zref ⟨y, cfg.target, .none, coh⟩
    pure (mse + c + p1 + p2)), ?_, ?_⟩
  all_goals
    unfold evalTerms
    have a1 : ∀ θ, cohTerm cfg.loss ⟨y, cfg.target, θ, coh⟩ = cohTerm cfg.loss ⟨y, cfg.target, .none, coh⟩ := fun _ => rfl
    have a2 : ∀ θ, pen1Term cfg.loss cfg.k1s cfg.phys.zref ⟨y, cfg.target, θ, coh⟩ =
      pen1Term cfg.loss cfg.k1s cfg.phys.zref ⟨y, cfg.target, .none, coh⟩ := fun _ => rfl
    have a3 : ∀ θ, pen2Term cfg.loss cfg.k1s cfg.phys.zref ⟨y, cfg.target, θ, coh⟩ =
      pen2Term cfg.loss cfg.k1s cfg.phys.zref ⟨y, cfg.target, .none, coh⟩ := fun _ => rfl
    have a4 : ∀ θ, regTerm cfg.loss ⟨y, cfg.target, θ, coh⟩ = regTerm cfg.loss ⟨[], [], θ, none⟩ := fun _ => rfl
    rw [a1, a2, a3, a4]
    simp only [bind, Except.bind, pure, Except.pure]
    rcases mseTerm y cfg.target with e | m
    · rfl
    rcases cohTerm cfg.loss ⟨y, cfg.target, .none, coh⟩ with e | c
    · rfl
    rcases pen1Term cfg.loss cfg.k1s cfg.phys.zref ⟨y, cfg.target, .none, coh⟩ with e | c1
    · rfl
    rcases pen2Term cfg.loss cfg.k1s cfg.phys.zref ⟨y, cfg.target, .none, coh⟩ with e | c2
    · rfl
    simp only
    rcases regTerm cfg.loss ⟨[], [], _, none⟩ with e | r <;> rfl

/-- A network of the same architecture (layer sizes, activations; `nu` may differ only if it is learned). -/
structure Spec.SameArchitecture (ln : Bool) (net net' : TauNet) : Prop where
  shapes : net'.linears.map (fun M => M.map List.length) = net.linears.map fun M => M.map List.length
  activations : net'.activations = net.activations
  nu : ln = false → net'.nu = net.nu

theorem shapesOf_length {Ws Ws' : List (List (List ℝ))} (h : shapesOf Ws = shapesOf Ws') :
    (Ws.map List.flatten).flatten.length = (Ws'.map List.flatten).flatten.length := by
  have e : ∀ Ws : List (List (List ℝ)), (Ws.map List.flatten).flatten.length = ((shapesOf Ws).map List.sum).sum := by
    intro Ws
    rw [List.length_flatten]
    unfold shapesOf
    rw [List.map_map, List.map_map]
    congr 1
    refine List.map_congr_left fun W _ => ?_
    simp [Function.comp, List.length_flatten]
  rw [e, e, h]

theorem setVec_withNet {ln : Bool} {s : OPS} {net net' : TauNet} (hk : s.kind = .taunet net) (h : Spec.SameArchitecture ln net net') :
    s.setVec ln ((Spec.withNet s net').paramVec ln) = Spec.withNet s net' ∧
    ((Spec.withNet s net').paramVec ln).length = (s.paramVec ln).length := by
  have hsh : shapesOf net.linears = shapesOf net'.linears := h.shapes.symm
  have hfl : (net.linears.map List.flatten).flatten.length = (net'.linears.map List.flatten).flatten.length := shapesOf_length hsh
  have hset : net.setVec ln (net'.paramVec ln) = net' := by
    unfold TauNet.setVec
    rw [fillMats_congr hsh]
    obtain ⟨l', a', n'⟩ := net'
    obtain ⟨l, a, n⟩ := net
    have ha := h.activations
    have hn := h.nu
    simp only at ha hn hfl
    unfold TauNet.paramVec
    simp only
    rw [fillMats_self, hfl]
    subst ha
    cases ln with
    | true => simp
    | false => simp [hn rfl]
  obtain ⟨hyp, kind, sp, logL, logT, logM, L0, T0, grid, scales, approx, k1s, beta, E0, cohGrid⟩ := s
  simp only at hk
  subst hk
  constructor
  · cases sp <;> simp [OPS.setVec, OPS.paramVec, OPS.headLen, Spec.withNet, hset]
  · cases sp <;> cases ln <;> simp [OPS.paramVec, Spec.withNet, TauNet.paramVec] <;> simpa using hfl.symm

/-- **C107** Nor by the training loss without regularisation: at parameters with the same lifetime it has the same value (or raises
the same exception). -/
theorem C107_loss (cfg : TrainCfg) (st : TrainState) {net net' : TauNet} (hk : st.ops.kind = .taunet net)
    (h : ∀ k, net'.forward k = net.forward k) (ha : Spec.SameArchitecture cfg.prob.learnNu net net') (hb : cfg.loss.betaReg ≤ 0) :
    (closure cfg ((Spec.withNet st.ops net').paramVec cfg.prob.learnNu) st).1 =
      (closure cfg (st.ops.paramVec cfg.prob.learnNu) st).1 := by
  rw [closure_recLoss, closure_recLoss, setVec_paramVec, (setVec_withNet hk ha).1]
  obtain ⟨X, h1, h2⟩ := recLoss_net cfg hk h
  rw [h1, h2]
  have g1 : genTheta cfg st.ops = .vec ((net.paramVec cfg.prob.learnNu).map fin) := by unfold genTheta; rw [hk]
  have g2 : genTheta cfg (Spec.withNet st.ops net') = .vec ((net'.paramVec cfg.prob.learnNu).map fin) := rfl
  rw [g1, g2]
  unfold regTerm
  simp only
  rw [if_neg (not_lt.2 hb), if_neg (not_lt.2 hb)]

theorem getD_lt {α : Type*} (l : List α) (d : α) {k : ℕ} (h : k < l.length) : l.getD k d = l[k] := by
  simp [List.getD_eq_getElem?_getD, h]

theorem sumSq_layers (W : List (List (List ℝ))) :
    (((W.map List.flatten).flatten).map fun x => x ^ 2).sum = ∑ k ∈ Finset.range W.length, Spec.layerSq W k := by
  induction W with
  | nil => simp
  | cons M W ih =>
    rw [List.length_cons, Finset.sum_range_succ']
    simp only [List.map_cons, List.flatten_cons, List.map_append, List.sum_append, ih]
    rw [add_comm]
    rfl

theorem layerSq_scale {cs : List ℝ} {W : List (List (List ℝ))} (h : cs.length = W.length) {k : ℕ} (hk : k < W.length) :
    Spec.layerSq (Spec.scaleLayers cs W) k = (cs.getD k 1) ^ 2 * Spec.layerSq W k := by
  have hk' : k < cs.length := by omega
  unfold Spec.layerSq Spec.scaleLayers
  have e1 : (List.zipWith (fun c (M : List (List ℝ)) => M.map fun row => row.map fun x => c * x) cs W).getD k [] =
      (W[k].map fun row => row.map fun x => cs[k] * x) := by
    rw [getD_lt _ _ (by simp [hk, hk'])]
    simp
  have e2 : W.getD k [] = W[k] := getD_lt _ _ hk
  have e3 : cs.getD k 1 = cs[k] := getD_lt _ _ hk'
  rw [e1, e2, e3]
  have e4 : (W[k].map fun row => row.map fun x => cs[k] * x).flatten = W[k].flatten.map fun x => cs[k] * x := by
    rw [List.map_flatten]
  rw [e4, List.map_map, ← List.sum_map_mul_left]
  congr 1
  refine List.map_congr_left fun x _ => ?_
  simp only [Function.comp]
  ring

/-- The factor `t` on layer `i` and `1/t` on layer `j`. -/
def Spec.exchange (n i j : ℕ) (t : ℝ) : List ℝ :=
  (List.range n).map fun k => (if k = i then t else 1) * (if k = j then t⁻¹ else 1)

theorem exchange_balancing {W : List (List (List ℝ))} {i j : ℕ} (hi : i < W.length) (hj : j < W.length) {t : ℝ} (ht : 0 < t) :
    Spec.Balancing (Spec.exchange W.length i j t) W := by
  refine ⟨by simp [Spec.exchange], ?_, ?_⟩
  · intro c hc
    obtain ⟨k, -, rfl⟩ := List.mem_map.1 hc
    have : 0 < t⁻¹ := inv_pos.2 ht
    refine mul_pos ?_ ?_ <;> split <;> first | assumption | exact one_pos
  · have e : ∀ (f : ℕ → ℝ) (n : ℕ), ((List.range n).map f).prod = ∏ k ∈ Finset.range n, f k := by
      intro f n
      induction n with
      | zero => simp
      | succ n ih => rw [List.range_succ, List.map_append, List.prod_append, ih, Finset.prod_range_succ]; simp
    unfold Spec.exchange
    rw [e, Finset.prod_mul_distrib, Finset.prod_ite_eq', Finset.prod_ite_eq', if_pos (Finset.mem_range.2 hi),
      if_pos (Finset.mem_range.2 hj), mul_inv_cancel₀ ht.ne']

theorem sumSq_exchange {W : List (List (List ℝ))} {i j : ℕ} (hi : i < W.length) (hj : j < W.length) (hij : i ≠ j) {t : ℝ}
    (ht : 0 < t) :
    (((Spec.scaleLayers (Spec.exchange W.length i j t) W).map List.flatten).flatten.map fun x => x ^ 2).sum =
      (((W.map List.flatten).flatten).map fun x => x ^ 2).sum + (t ^ 2 - 1) * Spec.layerSq W i +
        ((t⁻¹) ^ 2 - 1) * Spec.layerSq W j := by
  have hb := exchange_balancing hi hj ht
  rw [sumSq_layers, sumSq_layers]
  have hl : (Spec.scaleLayers (Spec.exchange W.length i j t) W).length = W.length := by
    simp [Spec.scaleLayers, hb.length]
  rw [hl]
  have e : ∀ k ∈ Finset.range W.length, Spec.layerSq (Spec.scaleLayers (Spec.exchange W.length i j t) W) k =
      Spec.layerSq W k + (if k = i then (t ^ 2 - 1) * Spec.layerSq W i else 0) +
        (if k = j then ((t⁻¹) ^ 2 - 1) * Spec.layerSq W j else 0) := by
    intro k hk
    have hk' := Finset.mem_range.1 hk
    rw [layerSq_scale hb.length hk']
    have : (Spec.exchange W.length i j t).getD k 1 = (if k = i then t else 1) * (if k = j then t⁻¹ else 1) := by
      unfold Spec.exchange
      rw [getD_lt _ _ (by simpa using hk')]
      simp
    rw [this]
    by_cases h1 : k = i
    · subst h1
      simp [hij]
      ring
    · by_cases h2 : k = j
      · subst h2
        simp [h1]
        ring
      · simp [h1, h2]
  rw [Finset.sum_congr rfl e, Finset.sum_add_distrib, Finset.sum_add_distrib, Finset.sum_ite_eq', Finset.sum_ite_eq',
    if_pos (Finset.mem_range.2 hi), if_pos (Finset.mem_range.2 hj)]

theorem scale_architecture (ln : Bool) (net : TauNet) {cs : List ℝ} (h : cs.length = net.linears.length) :
    Spec.SameArchitecture ln net { net with linears := Spec.scaleLayers cs net.linears } := by
  refine ⟨?_, rfl, fun _ => rfl⟩
  simp only
  generalize net.linears = W at h
  induction W generalizing cs with
  | nil => cases cs with
    | nil => rfl
    | cons c cs => simp at h
  | cons M W ih => cases cs with
    | nil => simp at h
    | cons c cs =>
      have := ih (cs := cs) (by simpa using h)
      simp only [Spec.scaleLayers, List.zipWith_cons_cons, List.map_cons] at this ⊢
      rw [this]
      simp

theorem paramVec_sumSq (ln : Bool) (net : TauNet) : ((net.paramVec ln).map fun x => x ^ 2).sum =
    (((net.linears.map List.flatten).flatten).map fun x => x ^ 2).sum + (if ln then net.nu ^ 2 else 0) := by
  unfold TauNet.paramVec
  cases ln <;> simp

/-- **C107** Hence the data do not determine the weights.  Without regularisation, as soon as one of the (at least two) layers is not
zero, every value of the loss is taken on an unbounded set of parameter vectors: there are parameters with the same lifetime, the
same predictions and the same loss and with an arbitrarily large network norm (as reported by `eval_trainable_norm`). -/
theorem C107_unbounded (cfg : TrainCfg) (st : TrainState) {net : TauNet} (hk : st.ops.kind = .taunet net)
    (hact : ∀ f ∈ net.activations, f = reluVec) (hlen : net.linears.length ≤ net.activations.length + 1)
    (hb : cfg.loss.betaReg ≤ 0) {i : ℕ} (hi : 0 < Spec.layerSq net.linears i) (h2 : 2 ≤ net.linears.length) (R : ℝ) :
    ∃ (net' : TauNet) (N : ℝ), Spec.SameArchitecture cfg.prob.learnNu net net' ∧ (∀ k, net'.forward k = net.forward k) ∧
      (closure cfg ((Spec.withNet st.ops net').paramVec cfg.prob.learnNu) st).1 =
        (closure cfg (st.ops.paramVec cfg.prob.learnNu) st).1 ∧
      evalTrainableNorm cfg.prob.learnNu (Spec.withNet st.ops net') = .ok N ∧ R < N := by
  have hil : i < net.linears.length := by
    by_contra hc
    rw [Spec.layerSq, List.getD_eq_getElem?_getD, List.getElem?_eq_none (not_lt.1 hc)] at hi
    simp at hi
  obtain ⟨j, hj, hij⟩ : ∃ j, j < net.linears.length ∧ i ≠ j := by
    by_cases h0 : i = 0
    · exact ⟨1, by omega, by omega⟩
    · exact ⟨0, by omega, h0⟩
  set a := Spec.layerSq net.linears i with ha
  have hs : 0 < Real.sqrt a := Real.sqrt_pos.2 hi
  have hR : 0 < |R| + 1 := by positivity
  have ht : 0 < (|R| + 1) / Real.sqrt a := div_pos hR hs
  set t := (|R| + 1) / Real.sqrt a with htdef
  have hbal := exchange_balancing hil hj ht
  have hf := C107_scaling net hact hlen hbal
  have har := scale_architecture cfg.prob.learnNu net hbal.length
  refine ⟨_, _, har, hf, C107_loss cfg st hk hf har hb, rfl, ?_⟩
  refine lt_of_lt_of_le (lt_of_le_of_lt (le_abs_self R) (lt_add_one _)) ?_
  refine Real.le_sqrt_of_sq_le ?_
  rw [paramVec_sumSq, sumSq_layers]
  have h1 : Spec.layerSq (Spec.scaleLayers (Spec.exchange net.linears.length i j t) net.linears) i = (|R| + 1) ^ 2 := by
    rw [layerSq_scale hbal.length hil]
    have : (Spec.exchange net.linears.length i j t).getD i 1 = t := by
      unfold Spec.exchange
      rw [getD_lt _ _ (by simpa using hil)]
      simp [hij]
    rw [this, htdef, div_pow, Real.sq_sqrt hi.le, div_mul_cancel₀ _ hi.ne']
  have h3 : ∀ (W : List (List (List ℝ))) k, 0 ≤ Spec.layerSq W k := fun W k => by
    unfold Spec.layerSq
    exact List.sum_nonneg fun x hx => by
      obtain ⟨y, -, rfl⟩ := List.mem_map.1 hx
      positivity
  have hl : (Spec.scaleLayers (Spec.exchange net.linears.length i j t) net.linears).length = net.linears.length := by
    simp [Spec.scaleLayers, hbal.length]
  have h4 := Finset.single_le_sum (f := fun k => Spec.layerSq (Spec.scaleLayers (Spec.exchange net.linears.length i j t) net.linears) k)
    (s := Finset.range (Spec.scaleLayers (Spec.exchange net.linears.length i j t) net.linears).length) (fun k _ => h3 _ k)
    (Finset.mem_range.2 (hl ▸ hil))
  rw [h1] at h4
  refine h4.trans (le_add_of_nonneg_right ?_)
  split <;> positivity

theorem layerSq_nonneg (W : List (List (List ℝ))) (k : ℕ) : 0 ≤ Spec.layerSq W k := by
  unfold Spec.layerSq
  exact List.sum_nonneg fun x hx => by
    obtain ⟨y, -, rfl⟩ := List.mem_map.1 hx
    positivity

/-- **C107** With regularisation the value of the loss at the exchanged weights: only the regularisation term sees the exchange. -/
theorem C107_exchange (cfg : TrainCfg) (st : TrainState) {net : TauNet} (hk : st.ops.kind = .taunet net)
    (hact : ∀ f ∈ net.activations, f = reluVec) (hlen : net.linears.length ≤ net.activations.length + 1)
    (hb : 0 < cfg.loss.betaReg) (hne : net.paramVec cfg.prob.learnNu ≠ []) {l : ℝ}
    (hl : (closure cfg (st.ops.paramVec cfg.prob.learnNu) st).1 = .ok (fin l))
    {i j : ℕ} (hi : i < net.linears.length) (hj : j < net.linears.length) (hij : i ≠ j) {t : ℝ} (ht : 0 < t) :
    (closure cfg ((Spec.withNet st.ops
        { net with linears := Spec.scaleLayers (Spec.exchange net.linears.length i j t) net.linears }).paramVec
          cfg.prob.learnNu) st).1 =
      .ok (fin (l + cfg.loss.betaReg * ((t ^ 2 - 1) * Spec.layerSq net.linears i + ((t⁻¹) ^ 2 - 1) * Spec.layerSq net.linears j) /
        (net.paramVec cfg.prob.learnNu).length)) := by
  have hbal := exchange_balancing hi hj ht
  have hf := C107_scaling net hact hlen hbal
  have har := scale_architecture cfg.prob.learnNu net hbal.length
  set net' : TauNet := { net with linears := Spec.scaleLayers (Spec.exchange net.linears.length i j t) net.linears } with hnet'
  have hset := setVec_withNet hk har
  obtain ⟨X, h1, h2⟩ := recLoss_net cfg hk hf
  have g1 : genTheta cfg st.ops = .vec ((net.paramVec cfg.prob.learnNu).map fin) := by unfold genTheta; rw [hk]
  have g2 : genTheta cfg (Spec.withNet st.ops net') = .vec ((net'.paramVec cfg.prob.learnNu).map fin) := rfl
  have hlenP : (net'.paramVec cfg.prob.learnNu).length = (net.paramVec cfg.prob.learnNu).length := by
    have hsh : shapesOf net'.linears = shapesOf net.linears := har.shapes
    have := shapesOf_length hsh
    unfold TauNet.paramVec
    rw [List.length_append, List.length_append, this]
  have hne' : net'.paramVec cfg.prob.learnNu ≠ [] := by
    intro h0
    rw [h0] at hlenP
    exact hne (List.length_eq_zero_iff.1 hlenP.symm)
  have r : ∀ n : TauNet, n.paramVec cfg.prob.learnNu ≠ [] →
      regTerm cfg.loss ⟨[], [], .vec ((n.paramVec cfg.prob.learnNu).map fin), none⟩ = .ok (fin (cfg.loss.betaReg *
        (((n.paramVec cfg.prob.learnNu).map fun x => x ^ 2).sum / (n.paramVec cfg.prob.learnNu).length))) := by
    intro n hn
    unfold regTerm
    simp only
    rw [if_pos hb]
    exact regularization_list _ hn
  rw [g1, r net hne] at h1
  rw [g2, r net' hne'] at h2
  rw [closure_recLoss, setVec_paramVec, h1] at hl
  rcases X with e | x
  · cases hl
  have hl' : x + fin (cfg.loss.betaReg * (((net.paramVec cfg.prob.learnNu).map fun x => x ^ 2).sum /
    (net.paramVec cfg.prob.learnNu).length)) = fin l := Except.ok.inj hl
  obtain ⟨x0, rfl⟩ : ∃ x0, x = fin x0 := by
    cases x with
    | fin x0 => exact ⟨x0, rfl⟩
    | nan => cases hl'
    | pinf => cases hl'
    | ninf => cases hl'
  rw [fin_add_fin] at hl'
  have hl'' := Fl.fin.inj hl'
  rw [closure_recLoss, hset.1, h2]
  simp only [bind, Except.bind, fin_add_fin]
  rw [← hl'', hlenP, paramVec_sumSq, paramVec_sumSq, hnet']
  simp only
  rw [sumSq_exchange hi hj hij ht]
  congr 2
  ring

/-- **C107** So regularisation balances the layers: parameters at which two layers have different sums of squared weights are never
optimal.  There are parameters of the same architecture with the same lifetime everywhere and a strictly smaller loss. -/
theorem C107_balanced (cfg : TrainCfg) (st : TrainState) {net : TauNet} (hk : st.ops.kind = .taunet net)
    (hact : ∀ f ∈ net.activations, f = reluVec) (hlen : net.linears.length ≤ net.activations.length + 1)
    (hb : 0 < cfg.loss.betaReg) {l : ℝ} (hl : (closure cfg (st.ops.paramVec cfg.prob.learnNu) st).1 = .ok (fin l))
    {i j : ℕ} (hi : i < net.linears.length) (hj : j < net.linears.length)
    (hd : Spec.layerSq net.linears i ≠ Spec.layerSq net.linears j) :
    ∃ (net' : TauNet) (l' : ℝ), Spec.SameArchitecture cfg.prob.learnNu net net' ∧ (∀ k, net'.forward k = net.forward k) ∧
      (closure cfg ((Spec.withNet st.ops net').paramVec cfg.prob.learnNu) st).1 = .ok (fin l') ∧ l' < l := by
  have hij : i ≠ j := fun h => hd (h ▸ rfl)
  have hne : net.paramVec cfg.prob.learnNu ≠ [] := by
    intro h0
    have hf : (net.linears.map List.flatten).flatten = [] := by
      unfold TauNet.paramVec at h0
      exact (List.append_eq_nil_iff.1 h0).1
    have hz : ∀ k, Spec.layerSq net.linears k = 0 := by
      intro k
      unfold Spec.layerSq
      by_cases hkk : k < net.linears.length
      · rw [getD_lt _ _ hkk]
        have := List.flatten_eq_nil_iff.1 hf _ (List.mem_map.2 ⟨_, List.getElem_mem hkk, rfl⟩)
        rw [this]; rfl
      · rw [List.getD_eq_getElem?_getD, List.getElem?_eq_none (not_lt.1 hkk)]; rfl
    exact hd (by rw [hz, hz])
  set a := Spec.layerSq net.linears i with hadef
  set b := Spec.layerSq net.linears j with hbdef
  have ha0 : 0 ≤ a := layerSq_nonneg _ _
  have hb0 : 0 ≤ b := layerSq_nonneg _ _
  have hc : (0 : ℝ) < a + b + 1 := by linarith
  -- a factor that decreases the sum of squares
  obtain ⟨s, hs, hlt⟩ : ∃ s : ℝ, 0 < s ∧ (s - 1) * (s * a - b) < 0 := by
    rcases lt_or_gt_of_ne hd with h | h
    · have h2 := div_pos (sub_pos.2 h) hc
      refine ⟨1 + (b - a) / (a + b + 1), by linarith, ?_⟩
      have h4 : (b - a) / (a + b + 1) * a < b - a := by
        rw [div_mul_eq_mul_div, div_lt_iff₀ hc]
        nlinarith
      have h5 : (1 + (b - a) / (a + b + 1)) * a - b < 0 := by nlinarith
      exact mul_neg_of_pos_of_neg (by linarith) h5
    · have h2 := div_pos (sub_pos.2 h) hc
      have hq : (a - b) / (a + b + 1) < 1 := by rw [div_lt_one hc]; linarith
      refine ⟨1 - (a - b) / (a + b + 1), by linarith, ?_⟩
      have h4 : (a - b) / (a + b + 1) * a < a - b := by
        rw [div_mul_eq_mul_div, div_lt_iff₀ hc]
        nlinarith
      have h5 : 0 < (1 - (a - b) / (a + b + 1)) * a - b := by nlinarith
      exact mul_neg_of_neg_of_pos (by linarith) h5
  have ht := Real.sqrt_pos.2 hs
  have hbal := exchange_balancing hi hj ht
  refine ⟨_, _, scale_architecture cfg.prob.learnNu net hbal.length, C107_scaling net hact hlen hbal,
    C107_exchange cfg st hk hact hlen hb hne hl hi hj hij ht, ?_⟩
  have hpos : (0 : ℝ) < (net.paramVec cfg.prob.learnNu).length := by
    exact_mod_cast List.length_pos_iff.2 hne
  have hneg : ((Real.sqrt s) ^ 2 - 1) * a + (((Real.sqrt s)⁻¹) ^ 2 - 1) * b < 0 := by
    rw [inv_pow, Real.sq_sqrt hs.le]
    have e : s * ((s - 1) * a + (s⁻¹ - 1) * b) = (s - 1) * (s * a - b) := by
      field_simp
      ring
    rw [← e] at hlt
    exact neg_of_mul_neg_right hlt hs.le
  have := div_neg_of_neg_of_pos (mul_neg_of_pos_of_neg hb hneg) hpos
  linarith

/-- A two-layer network with unequal layers, to which all of the above applies. -/
example : ∃ net : TauNet, (∀ f ∈ net.activations, f = reluVec) ∧ net.linears.length ≤ net.activations.length + 1 ∧
    Spec.Balancing (Spec.exchange 2 0 1 5) net.linears ∧ 0 < Spec.layerSq net.linears 0 ∧
    Spec.layerSq net.linears 0 ≠ Spec.layerSq net.linears 1 ∧
    Spec.scaleLayers (Spec.exchange 2 0 1 5) net.linears ≠ net.linears := by
  refine ⟨⟨[[[1, 2, 3], [4, 5, 6]], [[1, 0], [0, 1], [1, 1]]], [reluVec, reluVec], 0⟩, by simp, by simp, ?_, ?_, ?_, ?_⟩
  · exact exchange_balancing (W := [[[1, 2, 3], [4, 5, 6]], [[1, 0], [0, 1], [1, 1]]]) (i := 0) (j := 1) (by simp) (by simp) (by norm_num)
  · norm_num [Spec.layerSq]
  · norm_num [Spec.layerSq]
  · norm_num [Spec.scaleLayers, Spec.exchange, List.range_succ]

end
end Verif
