import Verif.Lemmas.Quad
import Verif.Lemmas.Tensor
import Verif.Lemmas.Eddy

/-! Helper lemmas for the one-point spectra. -/

namespace Verif
open Fl

noncomputable section

/-- The eddy lifetime is a finite number wherever `k1 ≠ 0`. -/
def OPSParams.LifetimeFinite (p : OPSParams) : Prop :=
  ∀ k : K3, k.k1 ≠ 0 → ∃ b, eddyLifetime p.hyp p.ty p.L p.T k = fin b

theorem OPSParams.L_pos (p : OPSParams) : 0 < p.L := Real.exp_pos _
theorem OPSParams.M_pos (p : OPSParams) : 0 < p.M := Real.exp_pos _
theorem OPSParams.T_pos (p : OPSParams) : 0 < p.T := Real.exp_pos _

theorem vecNorm_pos_of_k1 {k : K3} (h : k.k1 ≠ 0) : 0 < vecNorm [k.k1, k.k2, k.k3] := by
  rw [vecNorm_kkR]; exact Real.sqrt_pos.2 (kkR_pos h)

/-- Which lifetimes are finite: all of them, under the obvious condition on the special function / network. -/
theorem lifetimeFinite_of (p : OPSParams)
    (h : match p.ty with
      | .mann => ∀ x < 0, 0 < p.hyp x
      | .taunet net => net.Nondegenerate
      | _ => True) : p.LifetimeFinite := by
  intro k hk
  have hx : 0 < p.L * vecNorm [k.k1, k.k2, k.k3] := mul_pos p.L_pos (vecNorm_pos_of_k1 hk)
  unfold eddyLifetime
  revert h
  cases p.ty with
  | const => intro _; exact ⟨_, rfl⟩
  | mann =>
    intro h
    have hneg : -((p.L * vecNorm [k.k1, k.k2, k.k3]) ^ (-2 : ℝ)) < 0 := by
      have := Real.rpow_pos_of_pos hx (-2 : ℝ); linarith
    simp only [fin_mul_fin, mann_pos hx (h _ hneg)]
    exact ⟨_, rfl⟩
  | mannApprox c i =>
    intro _
    simp only [fin_mul_fin, Mann_linear_exponential_approx, log_fin hx, fin_add_fin, exp_fin]
    exact ⟨_, rfl⟩
  | twothird =>
    intro _
    simp only [fin_mul_fin, pow_fin _ hx]
    exact ⟨_, rfl⟩
  | taunet net =>
    intro h
    have hne : ¬ (k.k1 * p.L = 0 ∧ k.k2 * p.L = 0 ∧ k.k3 * p.L = 0) := by
      rintro ⟨h1, -, -⟩
      exact (mul_ne_zero hk p.L_pos.ne') h1
    obtain ⟨r, -, hr⟩ := forward_fin net (k := [k.k1 * p.L, k.k2 * p.L, k.k3 * p.L]) (by simpa using h _ _ _ hne)
    simp only [hr, fin_add_fin, fin_mul_fin]
    exact ⟨_, rfl⟩

theorem spectrum_pos (sp : SpectrumChoice) {x : ℝ} (hx : 0 < x) : ∃ e, 0 < e ∧ sp.eval (fin x) = fin e := by
  have h1 : 0 < 1 + x * x := by positivity
  cases sp with
  | vkLike =>
    have h2 : 0 < Real.sqrt (1 + x * x) := Real.sqrt_pos.2 h1
    simp only [SpectrumChoice.eval, VKLike_EnergySpectrum, one_def, fin_mul_fin, fin_add_fin, pow_fin _ hx,
      sqrt_fin h1.le, fin_div_fin _ h2.ne', pow_fin _ (div_pos hx h2)]
    exact ⟨_, mul_pos (Real.rpow_pos_of_pos hx _) (Real.rpow_pos_of_pos (div_pos hx h2) _), rfl⟩
  | learnable p q =>
    simp only [SpectrumChoice.eval, learnable_pos hx]
    exact ⟨_, div_pos (Real.rpow_pos_of_pos hx _) (Real.rpow_pos_of_pos h1 _), rfl⟩

/-- `E0 = M * (positive number independent of M)`. -/
theorem energyE0_pos (sp : SpectrumChoice) {L : ℝ} (hL : 0 < L) {k : K3} (hk : k.k1 ≠ 0) (b : ℝ) :
    ∃ e, 0 < e ∧ ∀ M : ℝ, energyE0 sp L M k (fin b) = fin (M * e) := by
  have h0 := kk0R_pos (b := b) hk
  have hx : 0 < L * Real.sqrt (kk0R k b) := mul_pos hL (Real.sqrt_pos.2 h0)
  obtain ⟨e, he, h⟩ := spectrum_pos sp hx
  refine ⟨L ^ (5 / 3 : ℝ) * e, mul_pos (Real.rpow_pos_of_pos hL _) he, fun M => ?_⟩
  unfold energyE0
  have hk0' : k.k1 * k.k1 + k.k2 * k.k2 + (k.k3 + b * k.k1) * (k.k3 + b * k.k1) = kk0R k b := rfl
  simp only [fin_mul_fin, fin_add_fin, hk0', sqrt_fin h0.le, pow_fin _ hL, h]
  rw [mul_assoc]

theorem floorEps_fin (eps x : ℝ) : ∃ y, eps ≤ y ∧ floorEps eps (fin x) = fin y := by
  unfold floorEps
  by_cases h : x < eps
  · exact ⟨eps, le_rfl, by simp [h]⟩
  · exact ⟨x, not_lt.1 h, by simp [h]⟩

theorem floorEpsSigned_fin (eps x : ℝ) : ∃ y, floorEpsSigned eps (fin x) = fin y := by
  unfold floorEpsSigned
  by_cases h : |x| < eps
  · simp only [abs_fin, lt_fin, h, if_true, Fl.sign]
    split_ifs <;> exact ⟨_, rfl⟩
  · exact ⟨x, by simp [h]⟩

theorem floorEps_of_le {eps x : ℝ} (h : eps ≤ x) : floorEps eps (fin x) = fin x := by
  unfold floorEps; simp [not_lt.2 h]

theorem floorEps_of_lt {eps x : ℝ} (h : x < eps) : floorEps eps (fin x) = fin eps := by
  unfold floorEps; simp [h]

@[simp] theorem floorEps_nan (eps : ℝ) : floorEps eps nan = nan := by simp [floorEps]
@[simp] theorem floorEpsSigned_nan (eps : ℝ) : floorEpsSigned eps nan = nan := by
  simp [floorEpsSigned, Fl.abs]

/-- A finite tensor whose five floored entries are at least `eps`. -/
structure Phi6.Floored (eps : ℝ) (p : Phi6) : Prop where
  p11 : ∃ y, eps ≤ y ∧ p.p11 = fin y
  p22 : ∃ y, eps ≤ y ∧ p.p22 = fin y
  p33 : ∃ y, eps ≤ y ∧ p.p33 = fin y
  p13 : ∃ y, p.p13 = fin y
  p23 : ∃ y, eps ≤ y ∧ p.p23 = fin y
  p12 : ∃ y, eps ≤ y ∧ p.p12 = fin y

theorem phiFloor_floored (eps : ℝ) {k : K3} (hk : k.k1 ≠ 0) (b e : ℝ) :
    (phiFloor eps (phiRaw k (fin b) (fin e))).Floored eps := by
  rw [phiRaw_fin hk]
  exact ⟨floorEps_fin _ _, floorEps_fin _ _, floorEps_fin _ _, floorEpsSigned_fin _ _, floorEps_fin _ _,
    floorEps_fin _ _⟩

theorem opsPhi_floored (p : OPSParams) (hp : p.LifetimeFinite) {k : K3} (hk : k.k1 ≠ 0) :
    (opsPhi p k).Floored 1e-12 := by
  obtain ⟨b, hb⟩ := hp k hk
  obtain ⟨e, -, he⟩ := energyE0_pos p.sp p.L_pos hk b
  have h4 : (4 * Real.pi) ≠ 0 := by positivity
  unfold opsPhi
  simp only [hb, he, fin_div_fin _ h4]
  exact phiFloor_floored _ hk _ _

theorem cohPhi_floored (p : OPSParams) (hp : p.LifetimeFinite) {k : K3} (hk : k.k1 ≠ 0) :
    (cohPhi p k).Floored 1e-32 := by
  obtain ⟨b, hb⟩ := hp k hk
  obtain ⟨e, -, he⟩ := energyE0_pos p.sp p.L_pos hk b
  have h4 : (4 * Real.pi) ≠ 0 := by positivity
  unfold cohPhi
  simp only [hb, he, fin_div_fin _ h4]
  exact phiFloor_floored _ hk _ _

/-- Reflection of the spanwise wavenumber. -/
def K3.flip2 (k : K3) : K3 := ⟨k.k1, -k.k2, k.k3⟩

theorem eddyLifetime_flip2 (hyp : ℝ → ℝ) (ty : EddyType) (L T : ℝ) (k : K3) :
    eddyLifetime hyp ty L T k.flip2 = eddyLifetime hyp ty L T k := by
  have hn : vecNorm [k.k1, -k.k2, k.k3] = vecNorm [k.k1, k.k2, k.k3] := by
    rw [vecNorm3, vecNorm3]; congr 1; ring
  unfold eddyLifetime K3.flip2
  simp only [hn]
  cases ty with
  | taunet net =>
    simp only
    rw [forward_abs net (k := [k.k1 * L, -k.k2 * L, k.k3 * L]) (k' := [k.k1 * L, k.k2 * L, k.k3 * L])]
    simp
  | _ => rfl

theorem flip2_kkR (k : K3) : kkR k.flip2 = kkR k := by simp [kkR, K3.flip2]
theorem flip2_sR (k : K3) : sR k.flip2 = sR k := by simp [sR, K3.flip2]
theorem flip2_k30R (k : K3) (b : ℝ) : k30R k.flip2 b = k30R k b := by simp [k30R, K3.flip2]
theorem flip2_kk0R (k : K3) (b : ℝ) : kk0R k.flip2 b = kk0R k b := by simp [kk0R, flip2_k30R]; simp [K3.flip2]
theorem flip2_c1R (k : K3) (b : ℝ) : c1R k.flip2 b = c1R k b := by
  unfold c1R; rw [flip2_kkR, flip2_sR, flip2_k30R, flip2_kk0R]; simp [K3.flip2]
theorem flip2_c2R (k : K3) (b : ℝ) : c2R k.flip2 b = -c2R k b := by
  unfold c2R atR; rw [flip2_sR, flip2_k30R, flip2_kk0R]; simp [K3.flip2]; ring
theorem flip2_z1R (k : K3) (b : ℝ) : z1R k.flip2 b = z1R k b := by
  unfold z1R; rw [flip2_c1R, flip2_c2R]; simp [K3.flip2]; ring
theorem flip2_z2R (k : K3) (b : ℝ) : z2R k.flip2 b = -z2R k b := by
  unfold z2R; rw [flip2_c1R, flip2_c2R]; simp [K3.flip2]; ring

/-- The grid is a strictly increasing list, symmetric about zero. -/
theorem opsGrid_symm (p1 p2 : ℝ) (n : ℕ) :
    (opsGrid p1 p2 n).reverse.map (fun x => -x) = opsGrid p1 p2 n := by
  unfold opsGrid
  simp

theorem opsGrid_length (p1 p2 : ℝ) (n : ℕ) : (opsGrid p1 p2 n).length = 2 * n + 1 := by
  simp [opsGrid, logspace, linspace]; ring

theorem logspace_pos {a b x : ℝ} {n : ℕ} (hx : x ∈ logspace a b n) : 0 < x := by
  unfold logspace at hx
  obtain ⟨y, -, rfl⟩ := List.mem_map.1 hx
  positivity

theorem linspace_sorted {a b : ℝ} (h : a < b) (n : ℕ) : (linspace a b n).Pairwise (· < ·) := by
  unfold linspace
  rw [List.pairwise_map]
  rcases Nat.lt_or_ge n 2 with hn | hn
  · have : n = 0 ∨ n = 1 := by omega
    rcases this with rfl | rfl <;> simp
  · refine List.pairwise_lt_range.imp ?_
    intro i j hij
    have hn' : (0:ℝ) < (n : ℝ) - 1 := by
      have : (2:ℝ) ≤ n := by exact_mod_cast hn
      linarith
    have hij' : (i:ℝ) < j := by exact_mod_cast hij
    have : (b - a) * (i:ℝ) / ((n:ℝ) - 1) < (b - a) * (j:ℝ) / ((n:ℝ) - 1) := by
      apply div_lt_div_of_pos_right _ hn'
      nlinarith
    linarith

theorem logspace_sorted {a b : ℝ} (h : a < b) (n : ℕ) : (logspace a b n).Pairwise (· < ·) := by
  unfold logspace
  rw [List.pairwise_map]
  exact (linspace_sorted h n).imp fun hxy => Real.rpow_lt_rpow_of_exponent_lt (by norm_num) hxy

theorem opsGrid_sorted {p1 p2 : ℝ} (h : p1 < p2) (n : ℕ) : (opsGrid p1 p2 n).Pairwise (· < ·) := by
  unfold opsGrid
  rw [List.append_assoc, List.pairwise_append]
  refine ⟨?_, ?_, ?_⟩
  · rw [List.pairwise_map, List.pairwise_reverse]
    exact (logspace_sorted h n).imp fun hxy => by linarith
  · rw [List.singleton_append, List.pairwise_cons]
    exact ⟨fun x hx => logspace_pos hx, logspace_sorted h n⟩
  · intro a ha b hb
    obtain ⟨y, hy, rfl⟩ := List.mem_map.1 ha
    have hy := logspace_pos (List.mem_reverse.1 hy)
    rcases List.mem_append.1 hb with hb | hb
    · simp at hb; rw [hb]; linarith
    · have := logspace_pos hb; linarith

theorem gridWidth_pos {g : List ℝ} (hg : g.Pairwise (· < ·)) (h2 : 2 ≤ g.length) : 0 < gridWidth g := by
  cases g with
  | nil => simp at h2
  | cons x l =>
    cases l with
    | nil => simp at h2
    | cons y l =>
      have hlast : (x :: y :: l).getLastD 0 ∈ (y :: l) := by
        have : (x :: y :: l).getLastD 0 = (y :: l).getLast (by simp) := by
          rw [List.getLastD_eq_getLast?, List.getLast?_eq_getLast_of_ne_nil (by simp)]
          simp
        rw [this]; exact List.getLast_mem _
      have := (List.pairwise_cons.1 hg).1 _ hlast
      unfold gridWidth
      simp only [List.headD_cons]
      linarith

end
end Verif
