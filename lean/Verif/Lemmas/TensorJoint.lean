import Verif.Lemmas.TensorCont
import Verif.Lemmas.KernelBound

/-! Joint continuity of the sheared tensor in all three wavenumbers and the strain, off the plane `k1 = 0`. -/

namespace Verif
open Fl Filter Topology Verif.Spec

noncomputable section

variable {α : Type} [TopologicalSpace α]

variable {k1 k2 k3 b : α → ℝ}

theorem contJ_k30R (h1 : Continuous k1) (h3 : Continuous k3) (hb : Continuous b) : Continuous fun a => k30R ⟨k1 a, k2 a, k3 a⟩ (b a) := by
  unfold k30R; fun_prop

theorem contJ_kkR (h1 : Continuous k1) (h2 : Continuous k2) (h3 : Continuous k3) : Continuous fun a => kkR ⟨k1 a, k2 a, k3 a⟩ := by
  unfold kkR; fun_prop

theorem contJ_sR (h1 : Continuous k1) (h2 : Continuous k2) : Continuous fun a => sR ⟨k1 a, k2 a, k3 a⟩ := by
  unfold sR; fun_prop

theorem contJ_kk0R (h1 : Continuous k1) (h2 : Continuous k2) (h3 : Continuous k3) (hb : Continuous b) :
    Continuous fun a => kk0R ⟨k1 a, k2 a, k3 a⟩ (b a) := by
  unfold kk0R k30R; fun_prop

theorem contJ_atR (h : ∀ a, k1 a ≠ 0) (h1 : Continuous k1) (h2 : Continuous k2) (h3 : Continuous k3) (hb : Continuous b) :
    Continuous fun a => atR ⟨k1 a, k2 a, k3 a⟩ (b a) := by
  have e : (fun a => atR ⟨k1 a, k2 a, k3 a⟩ (b a)) =
      fun a => Complex.arg (atPath (k1 a) (k2 a) (k30R ⟨k1 a, k2 a, k3 a⟩ (b a)) (b a)) := by
    funext a; rfl
  rw [e, continuous_iff_continuousAt]
  intro a
  have hp : Continuous fun a => atPath (k1 a) (k2 a) (k30R ⟨k1 a, k2 a, k3 a⟩ (b a)) (b a) := by
    have e2 : (fun a => atPath (k1 a) (k2 a) (k30R ⟨k1 a, k2 a, k3 a⟩ (b a)) (b a)) = fun a =>
        (((k1 a * k1 a + k2 a * k2 a + k30R ⟨k1 a, k2 a, k3 a⟩ (b a) * k30R ⟨k1 a, k2 a, k3 a⟩ (b a)) -
          k30R ⟨k1 a, k2 a, k3 a⟩ (b a) * k1 a * b a : ℝ) : ℂ) +
        ((b a * k1 a * Real.sqrt (k1 a * k1 a + k2 a * k2 a) : ℝ) : ℂ) * Complex.I := by
      funext a
      apply Complex.ext <;> simp [atPath]
    rw [e2]
    unfold k30R
    fun_prop
  exact ContinuousAt.comp (f := fun a => atPath (k1 a) (k2 a) (k30R ⟨k1 a, k2 a, k3 a⟩ (b a)) (b a)) (g := Complex.arg)
    (Complex.continuousAt_arg (atPath_slit (h a) _ _ _)) hp.continuousAt

theorem contJ_z12 (h : ∀ a, k1 a ≠ 0) (h1 : Continuous k1) (h2 : Continuous k2) (h3 : Continuous k3) (hb : Continuous b) :
    Continuous (fun a => z1R ⟨k1 a, k2 a, k3 a⟩ (b a)) ∧ Continuous (fun a => z2R ⟨k1 a, k2 a, k3 a⟩ (b a)) := by
  have c0 := contJ_kk0R h1 h2 h3 hb
  have c30 := contJ_k30R (k2 := k2) h1 h3 hb
  have ck := contJ_kkR h1 h2 h3
  have cs := contJ_sR (k3 := k3) h1 h2
  have ca := contJ_atR h h1 h2 h3 hb
  have cc1 : Continuous fun a => c1R ⟨k1 a, k2 a, k3 a⟩ (b a) := by
    unfold c1R
    refine Continuous.div ?_ (ck.mul cs) fun a =>
      (mul_pos (kkR_pos (k := ⟨k1 a, k2 a, k3 a⟩) (h a)) (sR_pos (k := ⟨k1 a, k2 a, k3 a⟩) (h a))).ne'
    simp only
    fun_prop
  have cc2 : Continuous fun a => c2R ⟨k1 a, k2 a, k3 a⟩ (b a) := by
    unfold c2R
    refine Continuous.mul (Continuous.div (h2.mul c0) ?_ fun a =>
      (Real.rpow_pos_of_pos (sR_pos (k := ⟨k1 a, k2 a, k3 a⟩) (h a)) _).ne') ca
    exact cs.rpow_const fun a => Or.inl (sR_pos (k := ⟨k1 a, k2 a, k3 a⟩) (h a)).ne'
  have hq : Continuous fun a => k2 a / k1 a := h2.div h1 h
  exact ⟨cc1.sub (hq.mul cc2), (hq.mul cc1).add cc2⟩

/-- The sheared tensor is jointly continuous in the wavevector and the strain as long as `k1 ≠ 0`. -/
theorem contJ_sheared (h : ∀ a, k1 a ≠ 0) (h1 : Continuous k1) (h2 : Continuous k2) (h3 : Continuous k3) (hb : Continuous b) {E : ℝ → ℝ}
    (hE : ContinuousOn E (Set.Ioi 0)) (i j : Fin 3) :
    Continuous fun a => shearedTensor E (K3.vec ⟨k1 a, k2 a, k3 a⟩) (b a) i j := by
  have c0 := contJ_kk0R h1 h2 h3 hb
  have c30 := contJ_k30R (k2 := k2) h1 h3 hb
  have ck := contJ_kkR h1 h2 h3
  obtain ⟨cz1, cz2⟩ := contJ_z12 h h1 h2 h3 hb
  have cz3 : Continuous fun a => z3R ⟨k1 a, k2 a, k3 a⟩ (b a) := by
    unfold z3R
    exact c0.div ck fun a => (kkR_pos (k := ⟨k1 a, k2 a, k3 a⟩) (h a)).ne'
  have cE : Continuous fun a => E (Real.sqrt (kk0R ⟨k1 a, k2 a, k3 a⟩ (b a))) := by
    rw [← continuousOn_univ]
    exact hE.comp (Real.continuous_sqrt.comp c0).continuousOn fun a _ =>
      Real.sqrt_pos.2 (kk0R_pos (k := ⟨k1 a, k2 a, k3 a⟩) (h a))
  have cker : ∀ i j, Continuous fun a => kerR ⟨k1 a, k2 a, k3 a⟩ (b a) i j := by
    intro i j
    simp only [kerR]
    have e : ∀ a, zc ⟨k1 a, k2 a, k3 a⟩ (b a) = (z1R ⟨k1 a, k2 a, k3 a⟩ (b a), z2R ⟨k1 a, k2 a, k3 a⟩ (b a),
      z3R ⟨k1 a, k2 a, k3 a⟩ (b a)) := fun a => zc_generic (k := ⟨k1 a, k2 a, k3 a⟩) (h a)
    simp only [e]
    fin_cases i <;> fin_cases j <;> simp <;> fun_prop
  have e : (fun a => shearedTensor E (K3.vec ⟨k1 a, k2 a, k3 a⟩) (b a) i j) = fun a =>
      E (Real.sqrt (kk0R ⟨k1 a, k2 a, k3 a⟩ (b a))) / (4 * Real.pi) /
        (kk0R ⟨k1 a, k2 a, k3 a⟩ (b a) * kk0R ⟨k1 a, k2 a, k3 a⟩ (b a)) *
        ∑ m, kerR ⟨k1 a, k2 a, k3 a⟩ (b a) i m * kerR ⟨k1 a, k2 a, k3 a⟩ (b a) j m := by
    funext a
    exact shearedTensor_eq (k := ⟨k1 a, k2 a, k3 a⟩) (h a) E i j
  rw [e]
  refine Continuous.mul (Continuous.div (cE.div_const _) (c0.mul c0) fun a =>
    (mul_pos (kk0R_pos (k := ⟨k1 a, k2 a, k3 a⟩) (h a)) (kk0R_pos (k := ⟨k1 a, k2 a, k3 a⟩) (h a))).ne') ?_
  exact continuous_finsetSum _ fun m _ => (cker i m).mul (cker j m)


end
end Verif
