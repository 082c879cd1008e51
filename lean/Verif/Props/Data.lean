import Verif.Model.Data
import Verif.Lemmas.VkIntegral
import Verif.Props.OnePoint
import Verif.Props.Kernels
import Verif.Props.Loss

/-!
# Synthetic data and calibration targets: C26 - C29, C40
-/

namespace Verif
open Fl Filter Topology MeasureTheory Spec

noncomputable section

theorem mat3_apply (a b c d : Fl) (i j : Fin 3) : mat3 a b c d i j =
    if i = j then (if i = 0 then a else if i = 1 then b else c) else if i = 0 ∧ j = 2 then d else 0 := by
  fin_cases i <;> fin_cases j <;> simp [mat3]

/-- Closed form of the von Karman data for positive wavenumbers. -/
theorem vkData_eq {k1s : List ℝ} (hk : ∀ k ∈ k1s, 0 < k) {L : ℝ} (hL : 0 < L) (C : ℝ) :
    generateVonKarman k1s L C = .ok (k1s.map fun k i j => fin (k * if i = j then
        if i = 0 then 9 / 55 * C * (L ^ (-2 : ℝ) + k ^ 2) ^ (-5 / 6 : ℝ)
        else 3 / 110 * C * (3 * L ^ (-2 : ℝ) + 8 * k ^ 2) * (L ^ (-2 : ℝ) + k ^ 2) ^ (-11 / 6 : ℝ)
      else 0)) := by
  unfold generateVonKarman
  rw [if_neg hL.ne']
  simp only [Except.ok.injEq]
  apply List.map_congr_left
  intro k hkm
  have h0 := hk k hkm
  have hl : 0 < L ^ (-2 : ℝ) := by positivity
  have hden : 0 < L ^ (-2 : ℝ) + k * k := by positivity
  funext i j
  simp only [fin_mul_fin, fin_add_fin]
  rw [pow_fin _ hden, pow_fin _ hden, fin_div_fin _ (by positivity), fin_div_fin _ (by positivity), mat3_apply]
  have e1 : (L ^ (-2 : ℝ) + k ^ 2) ^ (-5 / 6 : ℝ) = ((L ^ (-2 : ℝ) + k * k) ^ (5 / 6 : ℝ))⁻¹ := by
    rw [← Real.rpow_neg hden.le, ← sq]; norm_num
  have e2 : (L ^ (-2 : ℝ) + k ^ 2) ^ (-11 / 6 : ℝ) = ((L ^ (-2 : ℝ) + k * k) ^ (11 / 6 : ℝ))⁻¹ := by
    rw [← Real.rpow_neg hden.le, ← sq]; norm_num
  rw [e1, e2]
  split_ifs <;> simp only [fin_mul_fin, zero_def] <;> congr 1 <;> ring

/-- **C26** The generated von Karman data are diagonal with equal transverse spectra, positive, and satisfy the isotropy
relation `F22 = (F11 - k1 dF11/dk1)/2` (data = `k1 * F`). -/
theorem C26_isotropy {L C : ℝ} (hL : 0 < L) (hC : 0 < C) :
    ∃ F11 F22 : ℝ → ℝ,
      (∀ k1s : List ℝ, (∀ k ∈ k1s, 0 < k) → generateVonKarman k1s L C = .ok (k1s.map fun k i j =>
        if i = j then (if i = 0 then fin (k * F11 k) else fin (k * F22 k)) else fin 0)) ∧
      (∀ k > 0, 0 < F11 k ∧ 0 < F22 k) ∧
      ∀ k > 0, ∃ d, HasDerivAt F11 d k ∧ F22 k = (F11 k - k * d) / 2 := by
  have hl : 0 < L ^ (-2 : ℝ) := by positivity
  refine ⟨fun k => 9 / 55 * C * (L ^ (-2 : ℝ) + k ^ 2) ^ (-5 / 6 : ℝ),
    fun k => 3 / 110 * C * (3 * L ^ (-2 : ℝ) + 8 * k ^ 2) * (L ^ (-2 : ℝ) + k ^ 2) ^ (-11 / 6 : ℝ), ?_, ?_, ?_⟩
  · intro k1s hk
    rw [vkData_eq hk hL]
    congr 2
    funext k i j
    split_ifs
    · rfl
    · rfl
    · rw [mul_zero]
  · intro k hk
    constructor <;> positivity
  · intro k hk
    have hp : 0 < L ^ (-2 : ℝ) + k ^ 2 := by positivity
    have h := (hasDerivAt_lin_rpow (L := 1) hl (-5 / 6) k).const_mul (9 / 55 * C)
    simp only [one_pow, one_mul, mul_one] at h
    refine ⟨_, h, ?_⟩
    rw [show (-5 / 6 - 1 : ℝ) = -11 / 6 by norm_num]
    have e : (L ^ (-2 : ℝ) + k ^ 2) ^ (-5 / 6 : ℝ) = (L ^ (-2 : ℝ) + k ^ 2) ^ (-11 / 6 : ℝ) * (L ^ (-2 : ℝ) + k ^ 2) := by
      conv_rhs => rw [← Real.rpow_one (L ^ (-2 : ℝ) + k ^ 2), ← Real.rpow_mul hp.le, ← Real.rpow_add hp]
      norm_num
    simp only
    rw [e]
    ring

example : ∀ k ∈ [0.1, 1, (10:ℝ)], 0 < k := by simp; norm_num

/-- **C27** The generated von Karman data are, for all nine entries, `k1` times the double integral over `k2, k3` of the
tensor squared by the von Karman generator kernel (energy amplitude `E0 = C`).  The integrals converge: they are
non-zero on the diagonal. -/
theorem C27_data_is_integral {L C : ℝ} (hL : 0 < L) (hC : 0 < C) {k1s : List ℝ} (hk : ∀ k ∈ k1s, 0 < k) :
    generateVonKarman k1s L C = .ok (k1s.map fun k1 i j =>
      fin (k1 * ∫ p : ℝ × ℝ, ((times1j (vkKernel L C ⟨k1, p.1, p.2⟩) *
        (times1j (vkKernel L C ⟨k1, p.1, p.2⟩)).conjTranspose) i j).re)) := by
  rw [vkData_eq hk hL]
  congr 1
  apply List.map_congr_left
  intro k hkm
  have h0 := hk k hkm
  funext i j
  congr 2
  rw [← vk_plane_integral hL C h0 i j]
  congr 1
  funext p
  rw [(C10_vk_kernel hL hC.le ⟨k, p.1, p.2⟩).2.2 (fun h => h0.ne' (congrFun h 0))]
  simp [K3.vec]

/-- **C27** The same with the textbook tensor instead of the kernel. -/
theorem C27_textbook {L : ℝ} (hL : 0 < L) (C : ℝ) {k1s : List ℝ} (hk : ∀ k ∈ k1s, 0 < k) :
    generateVonKarman k1s L C = .ok (k1s.map fun k1 i j =>
      fin (k1 * ∫ p : ℝ × ℝ, isoTensor (vkE L C) ![k1, p.1, p.2] i j)) := by
  rw [vkData_eq hk hL]
  congr 1
  apply List.map_congr_left
  intro k hkm
  funext i j
  rw [vk_plane_integral hL C (hk k hkm) i j]

/-! ### Kaimal -/

theorem tendsto_kaimal {a b : ℝ} (ha : 0 < a) (hb : 0 < b) :
    Tendsto (fun n : ℝ => n ^ (2 / 3 : ℝ) * (a * n / (1 + b * n) ^ (5 / 3 : ℝ))) atTop (𝓝 (a / b ^ (5 / 3 : ℝ))) := by
  have h1 : Tendsto (fun n : ℝ => n⁻¹ + b) atTop (𝓝 (0 + b)) := tendsto_inv_atTop_zero.add_const b
  rw [zero_add] at h1
  have h2 := (tendsto_const_nhds (x := a)).div (h1.rpow_const (p := (5 / 3 : ℝ)) (Or.inl hb.ne')) (by positivity)
  refine h2.congr' ?_
  filter_upwards [eventually_gt_atTop 0] with n hn
  have e : 1 + b * n = n * (n⁻¹ + b) := by field_simp
  rw [e, Real.mul_rpow hn.le (by positivity), Pi.div_apply]
  have e2 : n ^ (5 / 3 : ℝ) = n ^ (2 / 3 : ℝ) * n := by
    conv_rhs => rw [← Real.rpow_one n, ← Real.rpow_mul hn.le, ← Real.rpow_add hn]
    norm_num
  rw [e2]
  have : 0 < n⁻¹ + b := by positivity
  have : 0 < (n⁻¹ + b) ^ (5 / 3 : ℝ) := by positivity
  generalize (n⁻¹ + b) ^ (5 / 3 : ℝ) = z at *
  field_simp

theorem tendsto_kaimal_w {a b : ℝ} (hb : 0 < b) :
    Tendsto (fun n : ℝ => n ^ (2 / 3 : ℝ) * (a * n / (1 + b * n ^ (5 / 3 : ℝ)))) atTop (𝓝 (a / b)) := by
  have h1 : Tendsto (fun n : ℝ => (n ^ (5 / 3 : ℝ))⁻¹ + b) atTop (𝓝 (0 + b)) :=
    ((tendsto_rpow_atTop (by norm_num : (0:ℝ) < 5 / 3)).inv_tendsto_atTop).add_const b
  rw [zero_add] at h1
  have h2 := (tendsto_const_nhds (x := a)).div h1 hb.ne'
  refine h2.congr' ?_
  filter_upwards [eventually_gt_atTop 0] with n hn
  have e2 : n ^ (5 / 3 : ℝ) = n ^ (2 / 3 : ℝ) * n := by
    conv_rhs => rw [← Real.rpow_one n, ← Real.rpow_mul hn.le, ← Real.rpow_add hn]
    norm_num
  rw [Pi.div_apply]
  rw [e2]
  have : 0 < n ^ (2 / 3 : ℝ) := by positivity
  field_simp

/-- **C28** The Kaimal data are `ustar²` times universal curves `S i j` of `k1 * zref` (the curves do not depend on
`zref`, `ustar` or the wavenumber list): positive on the diagonal, negative for `uw`, zero for every other off-diagonal
entry; `x^(2/3) S` has a finite positive limit on the diagonal (the -2/3 slope of the inertial subrange). -/
theorem C28_kaimal : ∃ S : Fin 3 → Fin 3 → ℝ → ℝ,
    (∀ (k1s : List ℝ) (zref ustar : ℝ), 0 < zref → (∀ k ∈ k1s, 0 < k) →
      generateKaimal k1s zref ustar = k1s.map fun k i j => fin (ustar ^ 2 * S i j (k * zref))) ∧
    (∀ x > 0, (∀ i, 0 < S i i x) ∧ S 0 2 x < 0) ∧
    (∀ i j x, i ≠ j → (i, j) ≠ (0, 2) → S i j x = 0) ∧
    ∀ i, ∃ c > 0, Tendsto (fun x => x ^ (2 / 3 : ℝ) * S i i x) atTop (𝓝 c) := by
  set c0 : ℝ := 1 / (2 * Real.pi) with hc0
  have hc : 0 < c0 := by positivity
  let f : ℝ → ℝ → ℝ → ℝ := fun a b n => a * n / (1 + b * n) ^ (5 / 3 : ℝ)
  let S : Fin 3 → Fin 3 → ℝ → ℝ := fun i j x =>
    if i = j then (if i = 0 then f 52.5 33 (c0 * x) else if i = 1 then f 8.5 9.5 (c0 * x)
      else 1.05 * (c0 * x) / (1 + 5.3 * (c0 * x) ^ (5 / 3 : ℝ)))
    else if i = 0 ∧ j = 2 then -7 * (c0 * x) / (1 + 9.6 * (c0 * x)) ^ (12 / 5 : ℝ) else 0
  refine ⟨S, ?_, ?_, ?_, ?_⟩
  · intro k1s zref ustar hz hk
    unfold generateKaimal
    apply List.map_congr_left
    intro k hkm
    have h0 := hk k hkm
    funext i j
    have hn : 0 < c0 * k * zref := by positivity
    simp only [fin_mul_fin, fin_add_fin, ← hc0]
    rw [pow_fin _ (by positivity), pow_fin _ (by positivity), pow_fin _ hn, pow_fin _ (by positivity)]
    simp only [fin_mul_fin, fin_add_fin]
    rw [fin_div_fin _ (by positivity), fin_div_fin _ (by positivity), fin_div_fin _ (by positivity),
      fin_div_fin _ (by positivity), mat3_apply]
    simp only [S, f, mul_assoc c0 k zref]
    split_ifs <;> simp only [fin_mul_fin, zero_def] <;> congr 1 <;> ring
  · intro x hx
    have : 0 < c0 * x := by positivity
    refine ⟨fun i => ?_, ?_⟩
    · simp only [S, f, if_true]
      split_ifs <;> positivity
    · have h02 : S 0 2 x = -7 * (c0 * x) / (1 + 9.6 * (c0 * x)) ^ (12 / 5 : ℝ) := by
        simp only [S]
        rw [if_neg (by decide), if_pos (by simp)]
      rw [h02]
      exact div_neg_of_neg_of_pos (by linarith) (by positivity)
  · intro i j x hij h02
    simp only [S]
    rw [if_neg hij, if_neg (by rintro ⟨rfl, rfl⟩; exact h02 rfl)]
  · intro i
    have hlin : Tendsto (fun x : ℝ => c0 * x) atTop atTop := tendsto_id.const_mul_atTop hc
    have tr : ∀ (g : ℝ → ℝ) (c : ℝ), 0 < c → Tendsto (fun n : ℝ => n ^ (2 / 3 : ℝ) * g n) atTop (𝓝 c) →
        ∃ d > 0, Tendsto (fun x => x ^ (2 / 3 : ℝ) * g (c0 * x)) atTop (𝓝 d) := by
      intro g c hcpos hg
      refine ⟨(c0 ^ (2 / 3 : ℝ))⁻¹ * c, by positivity, ?_⟩
      refine ((hg.comp hlin).const_mul _).congr' ?_
      filter_upwards [eventually_gt_atTop 0] with x hx
      simp only [Function.comp_apply]
      rw [Real.mul_rpow hc.le hx.le]
      have : c0 ^ (2 / 3 : ℝ) ≠ 0 := by positivity
      field_simp
    simp only [S, f, if_true]
    fin_cases i
    · exact tr _ _ (by positivity) (tendsto_kaimal (a := 52.5) (b := 33) (by norm_num) (by norm_num))
    · exact tr _ _ (by positivity) (tendsto_kaimal (a := 8.5) (b := 9.5) (by norm_num) (by norm_num))
    · exact tr _ (1.05 / 5.3) (by positivity) (tendsto_kaimal_w (a := 1.05) (b := 5.3) (by norm_num))

/-! ### Targets -/

/-- The tensor entry each row is supposed to represent: uu, vv, ww, uw, vw, uv. -/
def Spec.componentOrder : List (Fin 3 × Fin 3) := [(0, 0), (1, 1), (2, 2), (0, 2), (1, 2), (0, 1)]

theorem viewRows_flatten {α : Type} (n : ℕ) (rows : List (List α)) (h : ∀ r ∈ rows, r.length = n) :
    viewRows rows.length n rows.flatten = rows := by
  induction rows with
  | nil => rfl
  | cons r rows ih =>
    have hr := h r (by simp)
    simp only [List.length_cons, viewRows, List.flatten_cons]
    rw [List.take_append_of_le_length (by omega), List.drop_append_of_le_length (by omega), ← hr, List.take_length,
      List.drop_length, List.nil_append, hr, ih fun x hx => h x (by simp [hx])]

theorem targetRows_eq (nc : ℕ) (hnc : nc = 3 ∨ nc = 4 ∨ nc = 6) (ops : List Mat3) (nk1 : ℕ) :
    targetRows nc ops nk1 =
      if ops.length = nk1 then .ok ((Spec.componentOrder.take nc).map fun q => ops.map fun m => m q.1 q.2)
      else if ops.length = 1 then .ok (((Spec.componentOrder.take nc).map fun q => ops.map fun m => m q.1 q.2).map fun r =>
        List.replicate nk1 (r.headD 0))
      else .error .runtimeError := by
  set rows := (Spec.componentOrder.take nc).map fun q => ops.map fun m => m q.1 q.2 with hrows
  have hflat : kFDataVals nc ops = .ok rows.flatten := by
    rcases hnc with rfl | rfl | rfl <;> simp [kFDataVals, hrows, Spec.componentOrder]
  have hlen : rows.length = nc := by
    rcases hnc with rfl | rfl | rfl <;> simp [hrows, Spec.componentOrder]
  have hrl : ∀ r ∈ rows, r.length = ops.length := by
    intro r hr
    obtain ⟨q, -, rfl⟩ := List.mem_map.1 hr
    simp
  have hw : rows.flatten.length / nc = ops.length := by
    have : rows.flatten.length = rows.length * ops.length := by
      rw [List.length_flatten]
      rw [List.map_congr_left (g := fun _ => ops.length) hrl]
      simp
    rw [this, hlen]
    exact Nat.mul_div_cancel_left _ (by omega)
  unfold targetRows
  rw [hflat]
  simp only [hw]
  have hv : viewRows nc ops.length rows.flatten = rows := by
    conv_lhs => rw [← hlen, viewRows_flatten _ rows hrl]
  rw [hv]

/-- **C40** (data side) Row `r` of the target is the data of tensor entry `componentOrder[r]`. -/
theorem C40_target (nc : ℕ) (hnc : nc = 3 ∨ nc = 4 ∨ nc = 6) (ops : List Mat3) :
    targetRows nc ops ops.length =
      .ok ((Spec.componentOrder.take nc).map fun q => ops.map fun m => m q.1 q.2) := by
  rw [targetRows_eq nc hnc, if_pos rfl]

/-- **C40** (data side, other numbers of points) A single data tensor is used for every wavenumber; any other mismatch
between the numbers of data points and of wavenumbers raises `RuntimeError`. -/
theorem C40_mismatch (nc : ℕ) (hnc : nc = 3 ∨ nc = 4 ∨ nc = 6) (nk1 : ℕ) :
    (∀ m : Mat3, targetRows nc [m] nk1 = .ok ((Spec.componentOrder.take nc).map fun q => List.replicate nk1 (m q.1 q.2))) ∧
    ∀ ops : List Mat3, ops.length ≠ 1 → ops.length ≠ nk1 → targetRows nc ops nk1 = .error .runtimeError := by
  constructor
  · intro m
    rw [targetRows_eq nc hnc]
    by_cases h : nk1 = 1
    · subst h; simp
    · rw [if_neg (by simpa using fun h' => h h'.symm), if_pos (by simp)]
      simp [Function.comp_def]
  · intro ops h1 h2
    rw [targetRows_eq nc hnc, if_neg h2, if_neg h1]

open Classical in
/-- **C40** (model side) Row `r` of the prediction is `k1` times the quadrature of (the floored) tensor entry
`componentOrder[r]`, for the von Karman-like energy spectrum and every lifetime model with finite lifetimes. -/
theorem C40_prediction (s : OPS) (hp : s.params.LifetimeFinite) (hsp : s.sp = .vkLike) {k1s : List ℝ}
    (hk : ∀ k ∈ k1s, k ≠ 0) :
    (OPS.forward k1s s).1 = .ok (Spec.componentOrder.map fun q => k1s.map fun k1 =>
      fin k1 * quad23 s.grid s.grid fun k2 k3 =>
        (if q = (0, 2) then floorEpsSigned 1e-12 else floorEps 1e-12)
          (fin (shearedTensor (vkE (Real.exp s.logL) (Real.exp s.logM)) ![k1, k2, k3]
            (eddyLifetime s.hyp s.params.ty (Real.exp s.logL) (Real.exp s.logT) ⟨k1, k2, k3⟩).toReal q.1 q.2))) := by
  have key : ∀ k : K3, k.k1 ≠ 0 → opsPhi s.params k =
      let S := shearedTensor (vkE (Real.exp s.logL) (Real.exp s.logM)) ![k.k1, k.k2, k.k3]
        (eddyLifetime s.hyp s.params.ty (Real.exp s.logL) (Real.exp s.logT) k).toReal
      { p11 := floorEps 1e-12 (fin (S 0 0)), p22 := floorEps 1e-12 (fin (S 1 1)), p33 := floorEps 1e-12 (fin (S 2 2)),
        p13 := floorEpsSigned 1e-12 (fin (S 0 2)), p23 := floorEps 1e-12 (fin (S 1 2)),
        p12 := floorEps 1e-12 (fin (S 0 1)) } := by
    intro k hk
    obtain ⟨b, hb⟩ := hp k hk
    have hb' : eddyLifetime s.hyp s.params.ty (Real.exp s.logL) (Real.exp s.logT) k = fin b := hb
    have hspp : s.params.sp = .vkLike := hsp
    unfold opsPhi
    simp only [hb, hspp, hb', toReal_fin]
    rw [C14_fitter_tensor s.params.L_pos hk b]
    rfl
  rw [forward_eq]
  congr 1
  have hrow : ∀ (sel : Phi6 → Fl) (q : Fin 3 × Fin 3), (∀ k : K3, k.k1 ≠ 0 → sel (opsPhi s.params k) =
      (if q = (0, 2) then floorEpsSigned 1e-12 else floorEps 1e-12)
          (fin (shearedTensor (vkE (Real.exp s.logL) (Real.exp s.logM)) ![k.k1, k.k2, k.k3]
            (eddyLifetime s.hyp s.params.ty (Real.exp s.logL) (Real.exp s.logT) k).toReal q.1 q.2))) →
      (k1s.map fun k1 => fin k1 * quad23 s.grid s.grid fun k2 k3 => sel (opsPhi s.params ⟨k1, k2, k3⟩)) =
      k1s.map fun k1 => fin k1 * quad23 s.grid s.grid fun k2 k3 =>
        (if q = (0, 2) then floorEpsSigned 1e-12 else floorEps 1e-12)
          (fin (shearedTensor (vkE (Real.exp s.logL) (Real.exp s.logM)) ![k1, k2, k3]
            (eddyLifetime s.hyp s.params.ty (Real.exp s.logL) (Real.exp s.logT) ⟨k1, k2, k3⟩).toReal q.1 q.2)) := by
    intro sel q h
    apply List.map_congr_left
    intro k1 hk1
    congr 2
    funext k2 k3
    exact h ⟨k1, k2, k3⟩ (hk k1 hk1)
  simp only [phiSelectors, Spec.componentOrder, List.map_cons, List.map_nil]
  rw [hrow Phi6.p11 (0, 0), hrow Phi6.p22 (1, 1), hrow Phi6.p33 (2, 2), hrow Phi6.p13 (0, 2), hrow Phi6.p23 (1, 2),
    hrow Phi6.p12 (0, 1)]
  · rfl
  all_goals
    intro k hk'
    rw [key k hk']
    simp

/-- The hypotheses of `C40_prediction` are met by a freshly built object with the constant lifetime. -/
example : ∃ s : OPS, s.params.LifetimeFinite ∧ s.sp = .vkLike :=
  ⟨{ hyp := fun _ => 1, kind := .const, sp := .vkLike, logL := 0, logT := 0, logM := 0, L0 := 1, T0 := 1,
     grid := [-1, 0, 1], scales := none, approx := none, k1s := none, beta := none, E0 := none, cohGrid := none },
    C18_lifetimes _ (by simp [OPS.params, OPS.ty, OPS.initApprox]), rfl⟩

/-- A zero target entry makes the misfit non-finite or an error. -/
theorem mse_zero_target {y t : List (List Fl)} (hs : sameShape y t) (h : ∃ row ∈ t, fin 0 ∈ row) :
    mseTerm y t = .error .valueError ∨ mseTerm y t = .ok pinf := by
  obtain ⟨row, hrow, hx⟩ := h
  obtain ⟨i, hi, rfl⟩ := List.getElem_of_mem hrow
  obtain ⟨j, hj, h0⟩ := List.getElem_of_mem hx
  have hlen : y.length = t.length := by simpa using congrArg List.length hs
  have hlen2 : y[i].length = t[i].length := by
    have hs' : y.map List.length = t.map List.length := hs
    have := congrArg (fun l => l[i]?) hs'
    simpa [List.getElem?_map, hi, hlen] using this
  have hmem := getElem_mem_zipFlat (fun m t => Fl.log (Fl.abs (m / t)) * Fl.log (Fl.abs (m / t))) (a := y) (b := t)
    (i := i) (j := j) (by omega) hi (by omega) hj
  have hnf : ¬ (Fl.log (Fl.abs (y[i][j] / t[i][j])) * Fl.log (Fl.abs (y[i][j] / t[i][j]))).IsFin := by
    rw [h0]
    rcases y[i][j] with _ | _ | _ | x
    · simp [Fl.abs, Fl.log]
    · rw [pinf_div_fin_pos le_rfl]; simp [Fl.abs, Fl.log]
    · rw [ninf_div_fin_pos le_rfl]; simp [Fl.abs, Fl.log]
    · rw [fin_div_zero]
      rcases lt_trichotomy x 0 with h | h | h
      · rw [infMul_neg h]; simp [Fl.abs, Fl.log]
      · rw [h, infMul_zero]; simp [Fl.abs, Fl.log]
      · rw [infMul_pos h]; simp [Fl.abs, Fl.log]
  have := mean_not_fin (nn_zipFlat_sq (fun m t => Fl.log (Fl.abs (m / t))) y t) ⟨_, hmem, hnf⟩
  unfold mseTerm
  rw [if_pos hs]
  rcases this with h | h <;> rw [h]
  · left; exact raiseIfNan_nan
  · right; simp [raiseIfNan]

/-- **C29** Fitting the library's own von Karman data with 4 or 6 components: for every prediction the misfit is
infinite or raises `ValueError`. -/
theorem C29_von_karman {L : ℝ} (hL : 0 < L) (C : ℝ) {k1s : List ℝ} (hne : k1s ≠ []) (hk : ∀ k ∈ k1s, 0 < k) {nc : ℕ}
    (hnc : nc = 4 ∨ nc = 6) :
    ∃ ops t, generateVonKarman k1s L C = .ok ops ∧ targetRows nc ops k1s.length = .ok t ∧
      ∀ y, sameShape y t → mseTerm y t = .error .valueError ∨ mseTerm y t = .ok pinf := by
  set ops := k1s.map fun k (i j : Fin 3) => fin (k * if i = j then
        if i = 0 then 9 / 55 * C * (L ^ (-2 : ℝ) + k ^ 2) ^ (-5 / 6 : ℝ)
        else 3 / 110 * C * (3 * L ^ (-2 : ℝ) + 8 * k ^ 2) * (L ^ (-2 : ℝ) + k ^ 2) ^ (-11 / 6 : ℝ)
      else 0) with hops
  have hl : k1s.length = ops.length := by rw [hops, List.length_map]
  refine ⟨ops, _, vkData_eq hk hL C, hl ▸ C40_target nc (by tauto) ops, fun y hy => mse_zero_target hy ?_⟩
  refine ⟨ops.map fun m => m 0 2, ?_, ?_⟩
  · refine List.mem_map.2 ⟨(0, 2), ?_, rfl⟩
    rcases hnc with rfl | rfl <;> simp [Spec.componentOrder]
  · obtain ⟨k, hkm⟩ := List.exists_mem_of_ne_nil _ hne
    rw [hops, List.map_map]
    exact List.mem_map.2 ⟨k, hkm, by simp⟩

/-- **C29** Fitting the library's own Kaimal data with 6 components: likewise. -/
theorem C29_kaimal {zref : ℝ} (hz : 0 < zref) (ustar : ℝ) {k1s : List ℝ} (hne : k1s ≠ []) (hk : ∀ k ∈ k1s, 0 < k) :
    ∃ t, targetRows 6 (generateKaimal k1s zref ustar) k1s.length = .ok t ∧
      ∀ y, sameShape y t → mseTerm y t = .error .valueError ∨ mseTerm y t = .ok pinf := by
  obtain ⟨S, hS, -, h0, -⟩ := C28_kaimal
  rw [hS k1s zref ustar hz hk]
  set ops := k1s.map fun k (i j : Fin 3) => fin (ustar ^ 2 * S i j (k * zref)) with hops
  have hl : k1s.length = ops.length := by rw [hops, List.length_map]
  refine ⟨_, hl ▸ C40_target 6 (by tauto) ops, fun y hy => mse_zero_target hy ?_⟩
  refine ⟨ops.map fun m => m 1 2, ?_, ?_⟩
  · exact List.mem_map.2 ⟨(1, 2), by simp [Spec.componentOrder], rfl⟩
  · obtain ⟨k, hkm⟩ := List.exists_mem_of_ne_nil _ hne
    rw [hops, List.map_map]
    refine List.mem_map.2 ⟨k, hkm, ?_⟩
    simp only [Function.comp_apply]
    rw [h0 1 2 _ (by decide) (by decide), mul_zero]

/-- **C29** The combinations that are fittable: von Karman data with 3 components, Kaimal with 3 or 4, have targets
without zeros, so (C30) the misfit of every zero-free prediction of the same shape is a finite number. -/
theorem C29_fittable {L C zref ustar : ℝ} (hL : 0 < L) (hC : 0 < C) (hz : 0 < zref) (hu : ustar ≠ 0) {k1s : List ℝ}
    (hne : k1s ≠ []) (hk : ∀ k ∈ k1s, 0 < k) :
    (∃ ops t, generateVonKarman k1s L C = .ok ops ∧ targetRows 3 ops k1s.length = .ok (tens t) ∧ NoZero t ∧
      ∀ y, y.map List.length = t.map List.length → NoZero y → ∃ v, mseTerm (tens y) (tens t) = .ok (fin v)) ∧
    ∀ nc, nc = 3 ∨ nc = 4 →
      ∃ t, targetRows nc (generateKaimal k1s zref ustar) k1s.length = .ok (tens t) ∧ NoZero t ∧
        ∀ y, y.map List.length = t.map List.length → NoZero y → ∃ v, mseTerm (tens y) (tens t) = .ok (fin v) := by
  have fit : ∀ (nc : ℕ), (nc = 3 ∨ nc = 4 ∨ nc = 6) → ∀ (F : ℝ → Fin 3 → Fin 3 → ℝ),
      (∀ k ∈ k1s, ∀ q ∈ Spec.componentOrder.take nc, F k q.1 q.2 ≠ 0) →
      ∃ t, targetRows nc (k1s.map fun k i j => fin (F k i j)) k1s.length = .ok (tens t) ∧ NoZero t ∧
        ∀ y, y.map List.length = t.map List.length → NoZero y → ∃ v, mseTerm (tens y) (tens t) = .ok (fin v) := by
    intro nc hnc F hF
    set t := (Spec.componentOrder.take nc).map fun q => k1s.map fun k => F k q.1 q.2 with ht
    have hl : k1s.length = (k1s.map fun k (i j : Fin 3) => fin (F k i j)).length := by simp
    have hnz : NoZero t := by
      intro row hrow x hx
      obtain ⟨q, hq, rfl⟩ := List.mem_map.1 hrow
      obtain ⟨k, hkm, rfl⟩ := List.mem_map.1 hx
      exact hF k hkm q hq
    refine ⟨t, ?_, hnz, ?_⟩
    · rw [hl, C40_target nc hnc]
      congr 1
      simp only [tens, ht, List.map_map]
      apply List.map_congr_left
      intro q _
      simp only [Function.comp_apply, List.map_map]
      rfl
    · intro y hy hy0
      refine ⟨_, C30_value hy hy0 hnz ?_⟩
      intro hp
      obtain ⟨k, l, rfl⟩ := List.exists_cons_of_ne_nil hne
      have hco : ∃ c, Spec.componentOrder.take nc = (0, 0) :: c := by
        rcases hnc with rfl | rfl | rfl <;> exact ⟨_, rfl⟩
      obtain ⟨c, hc⟩ := hco
      rw [ht, hc] at hp hy
      simp only [List.map_cons] at hp hy
      rcases y with _ | ⟨yr, ys⟩
      · simp at hy
      · rcases yr with _ | ⟨y0, yr⟩
        · simp at hy
        · simp [pairs] at hp
  refine ⟨?_, ?_⟩
  · have := fit 3 (by tauto) (fun k i j => k * if i = j then
        if i = 0 then 9 / 55 * C * (L ^ (-2 : ℝ) + k ^ 2) ^ (-5 / 6 : ℝ)
        else 3 / 110 * C * (3 * L ^ (-2 : ℝ) + 8 * k ^ 2) * (L ^ (-2 : ℝ) + k ^ 2) ^ (-11 / 6 : ℝ)
      else 0) (by
        intro k hkm q hq
        have h0 := hk k hkm
        have hl : 0 < L ^ (-2 : ℝ) := by positivity
        have h1 : 0 < L ^ (-2 : ℝ) + k ^ 2 := by positivity
        simp only [Spec.componentOrder, List.take, List.mem_cons, List.not_mem_nil, or_false] at hq
        rcases hq with rfl | rfl | rfl
        · simp only [if_true]; positivity
        · simp only [if_true, one_ne_zero, if_false]; positivity
        · simp only [if_true]
          rw [if_neg (by decide)]
          positivity)
    obtain ⟨t, h1, h2, h3⟩ := this
    exact ⟨_, t, vkData_eq hk hL C, h1, h2, h3⟩
  · intro nc hnc
    obtain ⟨S, hS, hpos, -, -⟩ := C28_kaimal
    rw [hS k1s zref ustar hz hk]
    refine fit nc (by tauto) (fun k i j => ustar ^ 2 * S i j (k * zref)) ?_
    intro k hkm q hq
    have hx : 0 < k * zref := mul_pos (hk k hkm) hz
    have hu2 : ustar ^ 2 ≠ 0 := pow_ne_zero _ hu
    have hmem : q ∈ [((0:Fin 3), (0:Fin 3)), (1, 1), (2, 2), (0, 2)] := by
      rcases hnc with rfl | rfl
      · simp [Spec.componentOrder] at hq ⊢; tauto
      · simpa [Spec.componentOrder] using hq
    simp only [List.mem_cons, List.not_mem_nil, or_false] at hmem
    rcases hmem with rfl | rfl | rfl | rfl
    · exact mul_ne_zero hu2 ((hpos _ hx).1 0).ne'
    · exact mul_ne_zero hu2 ((hpos _ hx).1 1).ne'
    · exact mul_ne_zero hu2 ((hpos _ hx).1 2).ne'
    · exact mul_ne_zero hu2 (hpos _ hx).2.ne

end
end Verif
