import Verif.Model.RoundedNet
import Verif.Props.RoundingWindShear
import Verif.Props.RoundingTensor
import Verif.Props.Eddy

/-!
# C152: rounding errors of the eddy lifetime network

A network may cancel, so its error is not small compared with its output.  It is small compared with the output of the network with the
moduli of the weights.  Where the norm of the output is not much smaller than that, the lifetime has a small relative error, and the
bound for the DRD wind field (C147) needs no assumption on the computed lifetimes.
-/

namespace Verif
open Fl Fmt

noncomputable section

/-! ### What the statements refer to -/

/-- The layers with the moduli of the weights and without activations, and the residual connection. -/
def Spec.majorant (net : TauNet) (x : List ℝ) : List ℝ :=
  List.zipWith (· + ·) x
    (net.linears.foldl (fun out W => W.map fun row => (List.zipWith (fun w t => |w| * t) row out).sum) x)

/-- An elementwise activation that vanishes at zero and does not increase distances. -/
def Spec.Contracts (act : List ℝ → List ℝ) : Prop :=
  ∃ φ : ℝ → ℝ, (∀ x, act x = x.map φ) ∧ φ 0 = 0 ∧ ∀ s t, |φ s - φ t| ≤ |s - t|

/-- Entry by entry, `y` differs from `x` by at most `exp a - 1` times the entry of `N`. -/
def Spec.EntriesNear (a : ℝ) (N x y : List ℝ) : Prop :=
  N.length = x.length ∧ y.length = x.length ∧
    ∀ i < x.length, |x.getD i 0| ≤ N.getD i 0 ∧ |y.getD i 0 - x.getD i 0| ≤ (Real.exp a - 1) * N.getD i 0

theorem reluVec_contracts : Spec.Contracts reluVec :=
  ⟨fun t => max t 0, fun _ => rfl, max_self 0, fun s t => abs_max_sub_max_le_abs s t 0⟩

/-! ### Vectors -/

theorem LogNear.modulus {a x y : ℝ} (h : LogNear a x y) : LogNear a |x| |y| := by
  obtain ⟨s, hs, rfl⟩ := h
  exact ⟨s, hs, by rw [abs_mul, abs_of_pos (Real.exp_pos s)]⟩

inductive VecNear (a : ℝ) : List ℝ → List ℝ → List ℝ → Prop
  | nil : VecNear a [] [] []
  | cons {S x y : ℝ} {N X Y : List ℝ} (h : ScaleNear a S x y) (t : VecNear a N X Y) : VecNear a (S :: N) (x :: X) (y :: Y)

namespace VecNear
variable {A : Fmt} {a b : ℝ} {N X Y : List ℝ}

theorem mono (h : VecNear a N X Y) (hab : a ≤ b) : VecNear b N X Y := by
  induction h with
  | nil => exact .nil
  | cons h _ ih => exact .cons (h.mono hab le_rfl) ih

theorem entries (h : VecNear a N X Y) : Spec.EntriesNear a N X Y := by
  induction h with
  | nil => exact ⟨rfl, rfl, fun i hi => absurd hi (Nat.not_lt_zero i)⟩
  | cons h _ ih =>
    obtain ⟨h1, h2, h3⟩ := ih
    refine ⟨by simp [h1], by simp [h2], fun i hi => ?_⟩
    cases i with
    | zero => exact h.2
    | succ i => exact h3 i (by simpa using hi)

/-- The products of one row. -/
theorem dot (h : VecNear a N X Y) (ha : 0 ≤ a) (row : List ℝ) :
    ScaleNear (a + A.e) (List.zipWith (fun w t => |w| * t) row N).sum (List.zipWith (· * ·) row X).sum (List.zipWith A.mul row Y).sum ∧
      ((List.zipWith A.mul row Y).map fun x => |x|).sum ≤ Real.exp (a + A.e) * (List.zipWith (fun w t => |w| * t) row N).sum := by
  have e0 := A.e_nonneg
  have hz : ScaleNear (a + A.e) 0 0 0 := ⟨by positivity, by simp, by simp⟩
  induction h generalizing row with
  | nil => cases row <;> exact ⟨by simpa using hz, by simp⟩
  | @cons S x y N X Y h _ ih =>
    cases row with
    | nil => exact ⟨by simpa using hz, by simp⟩
    | cons w r =>
      obtain ⟨i1, i2⟩ := ih r
      have t1 : ScaleNear (a + A.e) (|w| * S) (w * x) (A.mul w y) :=
        (((ScaleNear.of_log (LogNear.refl w)).mul h).rnd A).mono (le_of_eq (by ring)) le_rfl
      have t2 := t1.abs_right
      simp only [List.zipWith_cons_cons, List.sum_cons, List.map_cons]
      exact ⟨t1.add i1, by linarith⟩

/-- One layer. -/
theorem linear {d : ℕ} (h : VecNear a N X Y) (ha : 0 ≤ a) {W : List (List ℝ)} {Z : List ℝ} (hZ : A.LinearOf d W Y Z) :
    VecNear (a + (d + 1) * A.e) (W.map fun row => (List.zipWith (fun w t => |w| * t) row N).sum) (Verif.linear W X) Z := by
  have e0 := A.e_nonneg
  unfold Verif.linear
  unfold Fmt.LinearOf at hZ
  induction hZ with
  | nil => exact .nil
  | @cons row s W Z hs _ ih =>
    refine .cons ?_ ih
    obtain ⟨d', hd, hs⟩ := hs
    obtain ⟨i1, i2⟩ := h.dot (A := A) ha row
    have m : (d' : ℝ) * A.e ≤ d * A.e := mul_le_mul_of_nonneg_right (by exact_mod_cast hd) e0
    exact (i1.trans (hs.scale.mono m i2)).mono (le_of_eq (by ring)) le_rfl

theorem act {f : List ℝ → List ℝ} (hf : Spec.Contracts f) (h : VecNear a N X Y) : VecNear a N (f X) (f Y) := by
  obtain ⟨φ, hφ, h0, hl⟩ := hf
  rw [hφ, hφ]
  induction h with
  | nil => exact .nil
  | @cons S x y N X Y h _ ih =>
    refine .cons ⟨h.1, ?_, (hl y x).trans h.2.2⟩ ih
    have := hl x 0
    rw [h0, sub_zero, sub_zero] at this
    exact this.trans h.2.1

/-- The hidden layers. -/
theorem layers {d : ℕ} {ls : List (List (List ℝ) × (List ℝ → List ℝ))} (hact : ∀ l ∈ ls, Spec.Contracts l.2) {Z : List ℝ}
    (hZ : A.LayersOf d ls Y Z) (ha : 0 ≤ a) (h : VecNear a N X Y) :
    VecNear (a + ls.length * ((d + 1) * A.e))
      ((ls.map Prod.fst).foldl (fun out W => W.map fun row => (List.zipWith (fun w t => |w| * t) row out).sum) N)
      (ls.foldl (fun out la => la.2 (Verif.linear la.1 out)) X) Z := by
  have e0 := A.e_nonneg
  induction hZ generalizing a N X with
  | nil x => simpa using h
  | @cons W f ls x y z hl _ ih =>
    have h1 := (h.linear ha hl).act (hact (W, f) (by simp))
    have h2 := ih (fun l hl => hact l (List.mem_cons_of_mem _ hl)) (by positivity) h1
    simp only [List.map_cons, List.foldl_cons, List.length_cons]
    exact h2.mono (le_of_eq (by push_cast; ring))

theorem residual {N' X' Y' : List ℝ} (h : VecNear a N X Y) (h' : VecNear a N' X' Y') :
    VecNear (a + A.e) (List.zipWith (· + ·) N N') (List.zipWith (· + ·) X X') (List.zipWith A.add Y Y') := by
  induction h generalizing N' X' Y' with
  | nil => exact .nil
  | cons h _ ih =>
    cases h' with
    | nil => exact .nil
    | cons h' t' => exact .cons ((h.add h').rnd A) (ih t')

end VecNear

theorem foldl_dropLast (f : List ℝ → List (List ℝ) → List ℝ) {l : List (List (List ℝ))} (hl : l ≠ []) (x : List ℝ) :
    l.foldl f x = f (l.dropLast.foldl f x) (l.getLastD []) := by
  conv_lhs => rw [← List.dropLast_append_getLast hl]
  rw [List.foldl_append, List.getLastD_eq_getLast?, List.getLast?_eq_some_getLast hl]
  rfl

theorem mlp_near {A : Fmt} {d : ℕ} {net : TauNet} (hlen : net.linears.length = net.activations.length + 1)
    (hact : ∀ f ∈ net.activations, Spec.Contracts f) {t : ℝ} {N X X' Y : List ℝ} (ht : 0 ≤ t) (hx : VecNear t N X X')
    (hy : A.MlpOf d net X' Y) :
    VecNear (t + (net.linears.length * (d + 1) + 1) * A.e) (Spec.majorant net N) (net.mlpForward X) Y := by
  have e0 := A.e_nonneg
  obtain ⟨h, out, h1, h2, rfl⟩ := hy
  have hne : net.linears ≠ [] := by intro h; rw [h] at hlen; simp at hlen
  have hl : net.linears.dropLast.length = net.activations.length := by rw [List.length_dropLast]; omega
  have hfst : (net.linears.dropLast.zip net.activations).map Prod.fst = net.linears.dropLast := List.map_fst_zip (by omega)
  have k1 := VecNear.layers (fun l hl => hact l.2 (List.of_mem_zip hl).2) h1 ht hx
  rw [hfst, List.length_zip, hl, Nat.min_self] at k1
  have k2 := k1.linear (by positivity) h2
  unfold Spec.majorant TauNet.mlpForward
  rw [foldl_dropLast _ hne]
  refine ((VecNear.mono hx ?_).residual k2).mono ?_
  · have : 0 ≤ (net.activations.length : ℝ) * ((d + 1) * A.e) + (d + 1) * A.e := by positivity
    linarith
  · rw [hlen]; push_cast; exact le_of_eq (by ring)

/-! ### The norm -/

theorem hypot_sub_le (p q r s : ℝ) :
    |Real.sqrt (p * p + q * q) - Real.sqrt (r * r + s * s)| ≤ Real.sqrt ((p - r) * (p - r) + (q - s) * (q - s)) := by
  have h := abs_norm_sub_norm_le (⟨p, q⟩ : ℂ) ⟨r, s⟩
  have e : ∀ x y : ℝ, ‖(⟨x, y⟩ : ℂ)‖ = Real.sqrt (x * x + y * y) := fun x y => by
    rw [Complex.norm_def, Complex.normSq_mk]
  rw [e, e, show (⟨p, q⟩ : ℂ) - ⟨r, s⟩ = ⟨p - r, q - s⟩ from rfl, e] at h
  exact h

theorem sq_sum_nonneg (x : List ℝ) : 0 ≤ (x.map fun t => t * t).sum :=
  List.sum_nonneg fun t ht => by
    obtain ⟨s, -, rfl⟩ := List.mem_map.1 ht
    exact mul_self_nonneg s

theorem vecNorm_cons (t : ℝ) (x : List ℝ) : vecNorm (t :: x) = Real.sqrt (t * t + vecNorm x * vecNorm x) := by
  unfold vecNorm
  rw [Real.mul_self_sqrt (sq_sum_nonneg x), List.map_cons, List.sum_cons]

theorem vecNorm_nonneg' (x : List ℝ) : 0 ≤ vecNorm x := Real.sqrt_nonneg _

theorem VecNear.norm {a : ℝ} {N X Y : List ℝ} (ha : 0 ≤ a) (h : VecNear a N X Y) :
    ScaleNear a (vecNorm N) (vecNorm X) (vecNorm Y) := by
  have c0 := ScaleNear.exp_sub_one_nonneg ha
  induction h with
  | nil => exact ⟨ha, by simp [vecNorm], by simp [vecNorm]⟩
  | @cons S x y N X Y h _ ih =>
    have S0 := h.scale_nonneg
    have n0 := vecNorm_nonneg' N
    have x0 := vecNorm_nonneg' X
    refine ⟨ha, ?_, ?_⟩
    · rw [vecNorm_cons, vecNorm_cons, abs_of_nonneg (Real.sqrt_nonneg _)]
      have h1 := h.2.1
      have h2 := ih.2.1
      rw [abs_of_nonneg x0] at h2
      refine Real.sqrt_le_sqrt (add_le_add ?_ (mul_self_le_mul_self x0 h2))
      rw [← abs_mul_abs_self x]
      exact mul_self_le_mul_self (abs_nonneg _) h1
    · rw [vecNorm_cons, vecNorm_cons, vecNorm_cons]
      refine (hypot_sub_le _ _ _ _).trans ?_
      have e : (Real.exp a - 1) * Real.sqrt (S * S + vecNorm N * vecNorm N) =
          Real.sqrt (((Real.exp a - 1) * S) * ((Real.exp a - 1) * S) + ((Real.exp a - 1) * vecNorm N) * ((Real.exp a - 1) * vecNorm N)) := by
        rw [show ((Real.exp a - 1) * S) * ((Real.exp a - 1) * S) + ((Real.exp a - 1) * vecNorm N) * ((Real.exp a - 1) * vecNorm N) =
          ((Real.exp a - 1) * (Real.exp a - 1)) * (S * S + vecNorm N * vecNorm N) by ring,
          Real.sqrt_mul (mul_self_nonneg _), Real.sqrt_mul_self c0]
      rw [e]
      refine Real.sqrt_le_sqrt (add_le_add ?_ ?_)
      · rw [← abs_mul_abs_self (y - x)]
        exact mul_self_le_mul_self (abs_nonneg _) h.2.2
      · rw [← abs_mul_abs_self (vecNorm Y - vecNorm X)]
        exact mul_self_le_mul_self (abs_nonneg _) ih.2.2

theorem sq_sum_near (A : Fmt) (x : List ℝ) : LogNear A.e (x.map fun t => t * t).sum (x.map A.sq).sum := by
  induction x with
  | nil => simpa using (LogNear.refl 0).mono A.e_nonneg
  | cons t x ih =>
    have h := A.sq_near (LogNear.refl t)
    simp only [List.map_cons, List.sum_cons]
    exact (h.mono (le_of_eq (by ring))).add ih (mul_self_nonneg t) (sq_sum_nonneg x)

theorem norm_near {A : Fmt} {d : ℕ} {x : List ℝ} {m : ℝ} (h : A.NormOf d x m) : LogNear ((d + 3) / 2 * A.e) (vecNorm x) m := by
  have e0 := A.e_nonneg
  obtain ⟨d', hd, s, hs, rfl⟩ := h
  have h0 : ∀ t ∈ x.map A.sq, 0 ≤ t := by
    intro t ht
    obtain ⟨r, -, rfl⟩ := List.mem_map.1 ht
    exact (A.sq_near (LogNear.refl r)).nonneg_right (mul_self_nonneg r)
  have m1 : (d' : ℝ) * A.e ≤ d * A.e := mul_le_mul_of_nonneg_right (by exact_mod_cast hd) e0
  have h1 := (sq_sum_near A x).trans ((hs.near h0).mono m1)
  exact (A.sqrt_near h1).mono (le_of_eq (by ring))

/-! ### The lifetime -/

theorem rational_near (A : Fmt) (he : A.e ≤ 1) {nu m m' α R : ℝ} (hm : 0 < m) (h : LogNear α m m') (hα : α ≤ 1)
    (h1 : |Real.log m| ≤ R) (h2 : Real.log (1 + m * m) ≤ R) :
    LogNear ((|nu| + 2) * (2 * α + (2 * R + 6) * A.e)) (m ^ (nu - 2 / 3) / (1 + m * m) ^ (nu / 2)) (A.rational nu m') := by
  have e0 := A.e_nonneg
  have a0 := h.nonneg
  have R0 := (abs_nonneg _).trans h1
  have hm' := h.pos hm
  have n0 := abs_nonneg nu
  unfold Fmt.rational
  simp only [abs_of_pos hm']
  have hmm : 0 < 1 + m * m := by nlinarith [mul_pos hm hm]
  have den0 : LogNear (2 * α + 2 * A.e) (1 + m * m) (A.add 1 (A.sq m')) :=
    (A.add_near ((LogNear.refl 1).mono (by positivity : (0:ℝ) ≤ 2 * α + A.e)) (A.sq_near h) zero_le_one (mul_self_nonneg m)).mono
      (le_of_eq (by ring))
  have hlog : |Real.log (1 + m * m)| ≤ R := by
    rw [abs_of_nonneg (Real.log_nonneg (by nlinarith [mul_pos hm hm]))]; exact h2
  have den := A.powLit_near den0 hmm hlog (nu / 2)
  have lm' : |Real.log m'| ≤ R + α := by
    have := h.abs_log hm
    rw [abs_le] at this h1 ⊢
    constructor <;> linarith [this.1, this.2, h1.1, h1.2]
  obtain ⟨p', hp'⟩ : ∃ p', p' = A.sub nu (A.rnd (2 / 3)) := ⟨_, rfl⟩
  have hp : |p' - (nu - 2 / 3)| ≤ A.e * (|nu| + 2) := by
    have r1 : |A.rnd (2 / 3) - 2 / 3| ≤ A.e * (2 / 3) := by
      have := (A.err (2 / 3)).trans (mul_le_mul_of_nonneg_right A.u_le_e (abs_nonneg _))
      rwa [abs_of_pos (by norm_num : (0:ℝ) < 2 / 3)] at this
    have r2 : |p' - (nu - A.rnd (2 / 3))| ≤ A.e * |nu - A.rnd (2 / 3)| := by
      rw [hp']
      exact (A.err _).trans (mul_le_mul_of_nonneg_right A.u_le_e (abs_nonneg _))
    have r3 : |nu - A.rnd (2 / 3)| ≤ |nu| + 4 / 3 := by
      have := abs_le.1 r1
      have := abs_le.1 (le_refl |nu|)
      rw [abs_le]
      constructor <;> linarith
    have r4 : A.e * |nu - A.rnd (2 / 3)| ≤ A.e * (|nu| + 4 / 3) := mul_le_mul_of_nonneg_left r3 e0
    have t := abs_sub_le p' (nu - A.rnd (2 / 3)) (nu - 2 / 3)
    rw [show nu - A.rnd (2 / 3) - (nu - 2 / 3) = -(A.rnd (2 / 3) - 2 / 3) by ring, abs_neg] at t
    linarith
  have num := ((h.rpow hm (nu - 2 / 3)).trans (LogNear.exponent hm' (nu - 2 / 3) p')).trans (A.pow_near hm' p')
  rw [← hp']
  refine (A.div_near num den).mono ?_
  have c1 : |nu - 2 / 3| ≤ |nu| + 2 := by
    have := abs_le.1 (le_refl |nu|)
    rw [abs_le]; constructor <;> linarith
  have c2 : |nu / 2| = |nu| / 2 := by rw [abs_div, abs_of_pos (by norm_num : (0:ℝ) < 2)]
  rw [c2]
  obtain ⟨V, hV⟩ : ∃ V, V = |nu| + 2 := ⟨_, rfl⟩
  have hnu : |nu| = V - 2 := by linarith
  rw [← hV] at hp c1 ⊢
  rw [hnu]
  have d1 : |nu - 2 / 3| * α ≤ V * α := mul_le_mul_of_nonneg_right c1 a0
  have d2 : |p' - (nu - 2 / 3)| * |Real.log m'| ≤ A.e * V * (R + α) := mul_le_mul hp lm' (abs_nonneg _) (by nlinarith)
  have V2 : 2 ≤ V := by linarith
  have d3 : (V - 2) / 2 * (2 * α + 2 * A.e + A.e * (R + (2 * α + 2 * A.e))) ≤
      V / 2 * (2 * α + 2 * A.e + A.e * (R + (2 * α + 2 * A.e))) :=
    mul_le_mul_of_nonneg_right (by linarith) (by positivity)
  have d4 : A.e * V * α ≤ A.e * V := mul_le_of_le_one_right (by positivity) hα
  have d5 : A.e * V * A.e ≤ A.e * V := mul_le_of_le_one_right (by positivity) he
  have d6 : 2 * A.e ≤ V * A.e := mul_le_mul_of_nonneg_right V2 e0
  have d7 : 0 ≤ V * R * A.e := by positivity
  linarith

/-- **C152** The output of the network: each entry differs from the exact one by at most `exp (…e) - 1` times the entry of the network with
the moduli of the weights.  The error grows linearly with the number of layers times the depth of the sums. -/
theorem C152_network (A : Fmt) {d : ℕ} {net : TauNet} (hlen : net.linears.length = net.activations.length + 1)
    (hact : ∀ f ∈ net.activations, Spec.Contracts f) {x y : List ℝ} (hx : ∀ t ∈ x, 0 ≤ t) (hy : A.MlpOf d net x y) :
    Spec.EntriesNear ((net.linears.length * (d + 1) + 1) * A.e) (Spec.majorant net x) (net.mlpForward x) y := by
  have h : VecNear 0 x x x := by
    clear hy
    induction x with
    | nil => exact .nil
    | cons t x ih =>
      refine .cons ⟨le_rfl, ?_, by simp⟩ (ih fun s hs => hx s (List.mem_cons_of_mem _ hs))
      rw [abs_of_nonneg (hx t (by simp))]
  have := (mlp_near hlen hact le_rfl h hy).entries
  rwa [zero_add] at this

/-- The network at inputs known to a factor `exp t`. -/
theorem forward_near (A : Fmt) (he : A.e ≤ 1) {d : ℕ} {net : TauNet} (hlen : net.linears.length = net.activations.length + 1)
    (hact : ∀ f ∈ net.activations, Spec.Contracts f) {t ρ R c x y z x' y' z' τ : ℝ} (h1 : LogNear t x x') (h2 : LogNear t y y')
    (h3 : LogNear t z z') (hρ : 1 ≤ ρ) (hm : 0 < vecNorm (net.mlpForward [|x|, |y|, |z|]))
    (hN : vecNorm (Spec.majorant net [|x|, |y|, |z|]) ≤ ρ * vecNorm (net.mlpForward [|x|, |y|, |z|]))
    (l1 : |Real.log (vecNorm (net.mlpForward [|x|, |y|, |z|]))| ≤ R)
    (l2 : Real.log (1 + vecNorm (net.mlpForward [|x|, |y|, |z|]) * vecNorm (net.mlpForward [|x|, |y|, |z|])) ≤ R)
    (hc : c = t + (net.linears.length * (d + 1) + (d + 5) / 2) * A.e) (hs : ρ * c ≤ 1 / 3) (hτ : A.ForwardOf d net [x', y', z'] τ) :
    ∃ b, net.forward [x, y, z] = fin b ∧ LogNear ((|net.nu| + 2) * (4 * ρ * c + (2 * R + 6) * A.e)) b τ := by
  have e0 := A.e_nonneg
  have ht := h1.nonneg
  obtain ⟨w, m', hy, hn, rfl⟩ := hτ
  have hin : ∀ {u u' : ℝ}, LogNear t u u' → ScaleNear t |u| |u| |u'| := fun hu => by
    have q := ScaleNear.of_log hu.modulus
    rwa [abs_abs] at q
  have hv : VecNear t [|x|, |y|, |z|] [|x|, |y|, |z|] ([x', y', z'].map fun t => |t|) :=
    .cons (hin h1) (.cons (hin h2) (.cons (hin h3) .nil))
  have n1 := (mlp_near hlen hact ht hv hy).norm (by positivity)
  have n2 := n1.trans ((ScaleNear.of_log (norm_near hn)).mono le_rfl n1.abs_right)
  have n3 := n2.mono (b := c) (le_of_eq (by rw [hc]; ring)) hN
  have n4 := (n3.rescale hρ (le_of_eq (abs_of_pos hm))).to_log hs
  have rat := rational_near A he (nu := net.nu) hm n4 (by linarith) l1 l2
  refine ⟨_, ?_, rat.mono (le_of_eq (by ring))⟩
  unfold TauNet.forward
  rw [show ([x, y, z].map fun t => |t|) = [|x|, |y|, |z|] from rfl, rational_pos _ hm]

/-- **C152** The lifetime of the DRD generator at wavenumbers with relative error `t`: if the norm of the network with the moduli of the
weights is at most `ρ` times the norm of the network's output, the computed lifetime is close to the exact one.  `R` bounds `|log m|` and
`log (1 + m²)` for the norm `m`. -/
theorem C152_lifetime (A : ShearFmt) (he : A.e ≤ 1) {d : ℕ} {net : TauNet} (hlen : net.linears.length = net.activations.length + 1)
    (hact : ∀ f ∈ net.activations, Spec.Contracts f) {Gamma h t ρ R : ℝ} {k k' : K3} (ht : 0 ≤ t)
    (m1 : LogNear t k.k1 k'.k1) (m2 : LogNear t k.k2 k'.k2) (m3 : LogNear t k.k3 k'.k3) (hρ : 1 ≤ ρ)
    (hk : k.vec ≠ 0 →
      let x := [|k.k1 * h|, |k.k2 * h|, |k.k3 * h|]
      let m := vecNorm (net.mlpForward x)
      0 < m ∧ vecNorm (Spec.majorant net x) ≤ ρ * m ∧ |Real.log m| ≤ R ∧ Real.log (1 + m * m) ≤ R)
    (hs : ρ * (t + (net.linears.length * (d + 1) + (d + 7) / 2) * A.e) ≤ 1 / 3) {b' : ℝ} (hb : A.NnBetaOf d net Gamma h k' b') :
    ∃ b, nnBeta net Gamma h k = fin b ∧
      LogNear ((|net.nu| + 2) * (4 * ρ * (t + (net.linears.length * (d + 1) + (d + 7) / 2) * A.e) + (2 * max R 0 + 6) * A.e) + A.e) b b' := by
  have e0 := A.e_nonneg
  obtain ⟨R', hR'⟩ : ∃ R', R' = max R 0 := ⟨_, rfl⟩
  have R0 : 0 ≤ R' := by rw [hR']; exact le_max_right _ _
  have RR : R ≤ R' := by rw [hR']; exact le_max_left _ _
  rw [← hR']
  obtain ⟨c, hc⟩ : ∃ c, c = t + (net.linears.length * (d + 1) + (d + 7) / 2) * A.e := ⟨_, rfl⟩
  have c0 : 0 ≤ c := by rw [hc]; positivity
  have kk := sumsq_pert A m1 m2 m3
  by_cases hk0 : k.vec = 0
  · have z1 : k.k1 = 0 := congrFun hk0 0
    have z2 : k.k2 = 0 := congrFun hk0 1
    have z3 : k.k3 = 0 := congrFun hk0 2
    have z : kkR k = 0 := by unfold kkR; rw [z1, z2, z3]; ring
    refine ⟨0, by unfold nnBeta; rw [if_pos (by rw [z1, z2, z3]; ring)], ?_⟩
    obtain ⟨s, -, hs'⟩ := kk
    rw [z, zero_mul] at hs'
    unfold ShearFmt.NnBetaOf at hb
    rw [if_pos hs'] at hb
    rw [hb]
    exact (LogNear.refl 0).mono (by positivity)
  · obtain ⟨hm, hN, l1, l2⟩ := hk hk0
    have z : 0 < kkR k := by
      unfold kkR
      by_contra hn
      have q1 := sq_nonneg k.k1
      have q2 := sq_nonneg k.k2
      have q3 := sq_nonneg k.k3
      have z1 : k.k1 = 0 := by apply pow_eq_zero_iff (two_ne_zero) |>.1; nlinarith
      have z2 : k.k2 = 0 := by apply pow_eq_zero_iff (two_ne_zero) |>.1; nlinarith
      have z3 : k.k3 = 0 := by apply pow_eq_zero_iff (two_ne_zero) |>.1; nlinarith
      refine hk0 (funext fun i => ?_)
      fin_cases i
      · exact z1
      · exact z2
      · exact z3
    have hkk : k.k1 ^ 2 + k.k2 ^ 2 + k.k3 ^ 2 ≠ 0 := by
      have : kkR k = k.k1 ^ 2 + k.k2 ^ 2 + k.k3 ^ 2 := by unfold kkR; ring
      rw [← this]; exact z.ne'
    unfold ShearFmt.NnBetaOf at hb
    rw [if_neg (kk.pos z).ne'] at hb
    obtain ⟨τ, hτ, rfl⟩ := hb
    have hin : ∀ {u u' : ℝ}, LogNear t u u' → LogNear (t + A.e) (u * h) (A.mul u' h) := fun hu =>
      (A.mul_near hu (LogNear.refl h)).mono (le_of_eq (by ring))
    obtain ⟨b, hb1, hb2⟩ := forward_near A.toFmt he hlen hact (hin m1) (hin m2) (hin m3) hρ hm hN (l1.trans RR) (l2.trans RR) (c := c)
      (by rw [hc]; ring) (by rw [hc]; exact hs) hτ
    refine ⟨_, ?_, (A.mul_near (LogNear.refl Gamma) hb2).mono (le_of_eq (by rw [← hc]; ring))⟩
    unfold nnBeta
    simp only [hkk, ↓reduceIte]
    rw [hb1, fin_mul_fin]

/-! ### Networks without cancellation -/

theorem absLinear_eq {W : List (List ℝ)} (hW : ∀ row ∈ W, ∀ w ∈ row, 0 ≤ w) (x : List ℝ) :
    (W.map fun row => (List.zipWith (fun w t => |w| * t) row x).sum) = linear W x := by
  unfold linear
  refine List.map_congr_left fun row hr => ?_
  have hw := hW row hr
  clear hr
  congr 1
  induction row generalizing x with
  | nil => rfl
  | cons w r ih =>
    cases x with
    | nil => rfl
    | cons t x =>
      rw [List.zipWith_cons_cons, List.zipWith_cons_cons, abs_of_nonneg (hw w (by simp)), ih x fun v hv => hw v (List.mem_cons_of_mem _ hv)]

theorem linear_nonneg {W : List (List ℝ)} (hW : ∀ row ∈ W, ∀ w ∈ row, 0 ≤ w) {x : List ℝ} (hx : ∀ t ∈ x, 0 ≤ t) :
    ∀ t ∈ linear W x, 0 ≤ t := by
  intro t ht
  obtain ⟨row, hr, rfl⟩ := List.mem_map.1 ht
  have hw := hW row hr
  clear hr ht
  induction row generalizing x with
  | nil => simp
  | cons w r ih =>
    cases x with
    | nil => simp
    | cons t x =>
      rw [List.zipWith_cons_cons, List.sum_cons]
      exact add_nonneg (mul_nonneg (hw w (by simp)) (hx t (by simp)))
        (ih (fun s hs => hx s (List.mem_cons_of_mem _ hs)) fun v hv => hw v (List.mem_cons_of_mem _ hv))

theorem reluVec_of_nonneg {x : List ℝ} (hx : ∀ t ∈ x, 0 ≤ t) : reluVec x = x := by
  unfold reluVec
  conv_rhs => rw [← List.map_id x]
  exact List.map_congr_left fun t ht => max_eq_left (hx t ht)

/-- **C152** Without negative weights nothing cancels (`ρ = 1`): the network with the moduli of the weights is the network. -/
theorem C152_nonneg {net : TauNet} (hlen : net.linears.length = net.activations.length + 1) (hact : ∀ f ∈ net.activations, f = reluVec)
    (hW : ∀ W ∈ net.linears, ∀ row ∈ W, ∀ w ∈ row, 0 ≤ w) {x : List ℝ} (hx : ∀ t ∈ x, 0 ≤ t) :
    Spec.majorant net x = net.mlpForward x := by
  have hne : net.linears ≠ [] := by intro h; rw [h] at hlen; simp at hlen
  have key : ∀ (ls : List (List (List ℝ) × (List ℝ → List ℝ))) (y : List ℝ), (∀ l ∈ ls, l.2 = reluVec) →
      (∀ l ∈ ls, ∀ row ∈ l.1, ∀ w ∈ row, 0 ≤ w) → (∀ t ∈ y, 0 ≤ t) →
      (ls.map Prod.fst).foldl (fun out W => W.map fun row => (List.zipWith (fun w t => |w| * t) row out).sum) y =
        ls.foldl (fun out la => la.2 (linear la.1 out)) y := by
    intro ls
    induction ls with
    | nil => intro y _ _ _; rfl
    | cons l ls ih =>
      intro y h1 h2 h3
      have p := linear_nonneg (h2 l (by simp)) h3
      rw [List.map_cons, List.foldl_cons, List.foldl_cons, absLinear_eq (h2 l (by simp)), h1 l (by simp), reluVec_of_nonneg p]
      exact ih _ (fun m hm => h1 m (List.mem_cons_of_mem _ hm)) (fun m hm => h2 m (List.mem_cons_of_mem _ hm)) p
  have hl : net.linears.dropLast.length = net.activations.length := by rw [List.length_dropLast]; omega
  have hfst : (net.linears.dropLast.zip net.activations).map Prod.fst = net.linears.dropLast := List.map_fst_zip (by omega)
  have hlast : net.linears.getLastD [] ∈ net.linears := by
    rw [List.getLastD_eq_getLast?, List.getLast?_eq_some_getLast hne]; exact List.getLast_mem hne
  unfold Spec.majorant TauNet.mlpForward
  have k := key _ _ (fun l hl => hact l.2 (List.of_mem_zip hl).2)
    (fun l hl => hW l.1 (List.mem_of_mem_dropLast (List.of_mem_zip hl).1)) hx
  rw [hfst] at k
  rw [foldl_dropLast _ hne, absLinear_eq (hW _ hlast), k]

/-- The network with the moduli of the weights. -/
def absNet (net : TauNet) : TauNet := ⟨net.linears.map fun W => W.map fun row => row.map fun w => |w|, net.activations, net.nu⟩

theorem majorant_absNet {net : TauNet} (hlen : net.linears.length = net.activations.length + 1) (hact : ∀ f ∈ net.activations, f = reluVec)
    {x : List ℝ} (hx : ∀ t ∈ x, 0 ≤ t) : Spec.majorant net x = (absNet net).mlpForward x := by
  rw [← C152_nonneg (net := absNet net) (by simpa [absNet] using hlen) hact ?_ hx]
  · unfold Spec.majorant absNet
    simp only [List.foldl_map, List.map_map]
    congr 2
    funext out W
    refine List.map_congr_left fun row _ => ?_
    simp only [Function.comp]
    congr 1
    rw [List.zipWith_map_left]
    simp only [abs_abs]
  · intro W hW row hr w hw
    obtain ⟨W0, -, rfl⟩ := List.mem_map.1 hW
    obtain ⟨r0, -, rfl⟩ := List.mem_map.1 hr
    obtain ⟨w0, -, rfl⟩ := List.mem_map.1 hw
    exact abs_nonneg w0

theorem vecNorm_map_mul {t : ℝ} (ht : 0 ≤ t) (x : List ℝ) : vecNorm (x.map fun a => t * a) = t * vecNorm x := by
  induction x with
  | nil => simp [vecNorm]
  | cons a x ih =>
    rw [List.map_cons, vecNorm_cons, vecNorm_cons, ih, show t * a * (t * a) + t * vecNorm x * (t * vecNorm x) =
      (t * t) * (a * a + vecNorm x * vecNorm x) by ring, Real.sqrt_mul (mul_self_nonneg t), Real.sqrt_mul_self ht]

/-- **C152** For a ReLU network whose output vanishes at the origin only, one `ρ` serves all wavevectors. -/
theorem C152_uniform {net : TauNet} (hlen : net.linears.length = net.activations.length + 1) (hact : ∀ f ∈ net.activations, f = reluVec)
    (hn : ∀ x y z : ℝ, ¬ (x = 0 ∧ y = 0 ∧ z = 0) → vecNorm (net.mlpForward [|x|, |y|, |z|]) ≠ 0) :
    ∃ ρ, 1 ≤ ρ ∧ ∀ x y z : ℝ, vecNorm (Spec.majorant net [|x|, |y|, |z|]) ≤ ρ * vecNorm (net.mlpForward [|x|, |y|, |z|]) := by
  have hF : ContList fun q : ℝ × ℝ × ℝ => [q.1, q.2.1, q.2.2].map fun t => |t| :=
    ContList.map (F := fun q : ℝ × ℝ × ℝ => [q.1, q.2.1, q.2.2])
      ⟨[fun q => q.1, fun q => q.2.1, fun q => q.2.2], by
        simp only [List.mem_cons, List.not_mem_nil, or_false]
        rintro f (rfl | rfl | rfl) <;> fun_prop, fun q => rfl⟩ continuous_abs
  have cont : ∀ N : TauNet, (∀ f ∈ N.activations, f = reluVec) →
      Continuous fun q : ℝ × ℝ × ℝ => vecNorm (N.mlpForward [|q.1|, |q.2.1|, |q.2.2|]) := fun N hN =>
    (ContList.mlp (net := N) (fun φ hφ => ⟨fun x => max x 0, by fun_prop, by rw [hN φ hφ]; rfl⟩) hF).norm
  obtain ⟨M, hM⟩ : ∃ M : ℝ × ℝ × ℝ → ℝ, M = fun q => vecNorm ((absNet net).mlpForward [|q.1|, |q.2.1|, |q.2.2|]) := ⟨_, rfl⟩
  obtain ⟨m, hm⟩ : ∃ m : ℝ × ℝ × ℝ → ℝ, m = fun q => vecNorm (net.mlpForward [|q.1|, |q.2.1|, |q.2.2|]) := ⟨_, rfl⟩
  have cM : Continuous M := by rw [hM]; exact cont (absNet net) hact
  have cm : Continuous m := by rw [hm]; exact cont net hact
  have hom : ∀ N : TauNet, (∀ f ∈ N.activations, f = reluVec) → ∀ (t : ℝ), 0 ≤ t → ∀ q : ℝ × ℝ × ℝ,
      vecNorm (N.mlpForward [|(t • q).1|, |(t • q).2.1|, |(t • q).2.2|]) = t * vecNorm (N.mlpForward [|q.1|, |q.2.1|, |q.2.2|]) := by
    intro N hN t ht q
    have : [|(t • q).1|, |(t • q).2.1|, |(t • q).2.2|] = [|q.1|, |q.2.1|, |q.2.2|].map fun a => t * a := by
      simp [abs_mul, abs_of_nonneg ht]
    rw [this, C09_homogeneous N hN ht, vecNorm_map_mul ht]
  have m0 : ∀ q : ℝ × ℝ × ℝ, q ≠ 0 → 0 < m q := fun q hq => by
    rw [hm]
    refine lt_of_le_of_ne (vecNorm_nonneg' _) (Ne.symm (hn _ _ _ ?_))
    rintro ⟨h1, h2, h3⟩
    exact hq (Prod.ext h1 (Prod.ext h2 h3))
  obtain ⟨C, hC⟩ := (isCompact_sphere (0 : ℝ × ℝ × ℝ) 1).exists_bound_of_continuousOn (f := fun q => M q / m q)
    (cM.continuousOn.div cm.continuousOn fun q hq => (m0 q (by rintro rfl; simp at hq)).ne')
  refine ⟨max C 1, le_max_right _ _, fun x y z => ?_⟩
  rw [majorant_absNet hlen hact (by simp)]
  obtain ⟨q, hq⟩ : ∃ q : ℝ × ℝ × ℝ, q = (x, y, z) := ⟨_, rfl⟩
  have e1 : vecNorm ((absNet net).mlpForward [|x|, |y|, |z|]) = M q := by rw [hM, hq]
  have e2 : vecNorm (net.mlpForward [|x|, |y|, |z|]) = m q := by rw [hm, hq]
  rw [e1, e2]
  have n0 : 0 ≤ ‖q‖ := norm_nonneg q
  by_cases q0 : q = 0
  · have z1 : M q = 0 := by
      have := hom (absNet net) hact 0 le_rfl q
      rw [zero_smul, zero_mul] at this
      rw [hM, q0]; exact this
    rw [z1]
    refine mul_nonneg (le_trans zero_le_one (le_max_right _ _)) ?_
    rw [hm]; exact vecNorm_nonneg' _
  · have np : 0 < ‖q‖ := norm_pos_iff.2 q0
    obtain ⟨r, hr⟩ : ∃ r : ℝ × ℝ × ℝ, r = ‖q‖⁻¹ • q := ⟨_, rfl⟩
    have hqr : q = ‖q‖ • r := by rw [hr, smul_smul, mul_inv_cancel₀ np.ne', one_smul]
    have r1 : ‖r‖ = 1 := by rw [hr, norm_smul, norm_inv, norm_norm, inv_mul_cancel₀ np.ne']
    have r0 : r ≠ 0 := by intro h; rw [h, norm_zero] at r1; exact zero_ne_one r1
    have hMr : M q = ‖q‖ * M r := by
      rw [hqr, hM]
      have := hom (absNet net) hact ‖q‖ n0 r
      beta_reduce
      rw [← hqr] at this ⊢
      exact this
    have hmr : m q = ‖q‖ * m r := by
      rw [hqr, hm]
      have := hom net hact ‖q‖ n0 r
      beta_reduce
      rw [← hqr] at this ⊢
      exact this
    have b := (le_abs_self _).trans (hC r (by rw [mem_sphere_zero_iff_norm]; exact r1))
    rw [div_le_iff₀ (m0 r r0)] at b
    rw [hMr, hmr]
    have b2 : M r ≤ max C 1 * m r := b.trans (mul_le_mul_of_nonneg_right (le_max_left _ _) (m0 r r0).le)
    calc ‖q‖ * M r ≤ ‖q‖ * (max C 1 * m r) := mul_le_mul_of_nonneg_left b2 n0
      _ = _ := by ring

/-- A network with weights of both signs to which this applies: the second layer subtracts half of the first wavenumber. -/
example : ∃ ρ, 1 ≤ ρ ∧ ∀ x y z : ℝ, let net : TauNet := ⟨[[[1, 0, 0]], [[-1 / 2], [0], [0]]], [reluVec], 0⟩
    vecNorm (Spec.majorant net [|x|, |y|, |z|]) ≤ ρ * vecNorm (net.mlpForward [|x|, |y|, |z|]) := by
  refine C152_uniform rfl (by simp) fun x y z h => ?_
  have e : (TauNet.mk [[[1, 0, 0]], [[-1 / 2], [0], [0]]] [reluVec] 0).mlpForward [|x|, |y|, |z|] = [|x| / 2, |y|, |z|] := by
    simp [TauNet.mlpForward, linear, reluVec]
    ring
  rw [e, vecNorm3]
  refine (Real.sqrt_pos.2 ?_).ne'
  by_contra hn
  have q1 := mul_self_nonneg |x|
  have q2 := mul_self_nonneg |y|
  have q3 := mul_self_nonneg |z|
  refine h ⟨?_, ?_, ?_⟩
  · exact abs_eq_zero.1 (mul_self_eq_zero.1 (by linarith))
  · exact abs_eq_zero.1 (mul_self_eq_zero.1 (by linarith))
  · exact abs_eq_zero.1 (mul_self_eq_zero.1 (by linarith))

/-! ### The wind -/

variable {env : GenEnv} {a : GenArgs} {g : Gen} {q : ℕ} [NeZero g.shape1.toNat] [NeZero g.shape2.toNat] [NeZero g.shape3.toNat]

/-- **C152** The wind field of a DRD generator, from the arguments of the constructor and the weights of the network on: C147 with the
lifetimes `b'` that the network computes.  Here `α` is the relative error of the lifetimes. -/
theorem C152_wind (A : ShearFmt) (he : A.e ≤ 1) (ha : a.PosScales) (h : genInit env a = (.ok g, q)) (hlow : a.low = none)
    {dn : ℕ} {net : TauNet} (hlen : net.linears.length = net.activations.length + 1) (hact : ∀ f ∈ net.activations, Spec.Contracts f)
    {L E0 Gamma hr R B ρ α : ℝ} (hk : g.kernel = .nn net L E0 Gamma hr) (hL : 0 < L) (hE : 0 ≤ E0) (h1 : |Real.log L| ≤ R) (hρ : 1 ≤ ρ)
    (hgrid : ∀ k, let p := Spec.freqAt g k
      1 + |(nnBeta net Gamma hr p).toReal| ≤ B ∧
      Real.log (1 + L ^ 2 * (p.k1 ^ 2 + p.k2 ^ 2 + (p.k3 + (nnBeta net Gamma hr p).toReal * p.k1) ^ 2)) ≤ R ∧
      (p.vec ≠ 0 →
        let x := [|p.k1 * hr|, |p.k2 * hr|, |p.k3 * hr|]
        let m := vecNorm (net.mlpForward x)
        0 < m ∧ vecNorm (Spec.majorant net x) ≤ ρ * m ∧ |Real.log m| ≤ R ∧ Real.log (1 + m * m) ≤ R))
    (hα : α = (|net.nu| + 2) * (4 * ρ * (net.linears.length * (dn + 1) + (dn + 25) / 2) + (2 * R + 6)) * A.e + A.e)
    (hs : 416 * B ^ 2 * (α + 38 * A.e) ≤ 1) {b' : K3 → ℝ} (hb : ∀ k, A.NnBetaOf dn net Gamma hr k (b' k))
    {cs : List (ℕ × ProfileArgs)} (hcs : ∀ r ∈ (g.run cs).1, ∃ f, r = .ok f) {p : ProfileArgs} {n : ℕ} {f : Arr Fl}
    (hf : ((g.run cs).2.generate p n).1 = .ok f) {m : ℕ → ℝ} {U P : ℝ}
    (hm : ∀ c < g.Nz, Spec.meanWind p (c * (a.d3 / 2 ^ a.l3)) = fin (m c) ∧ |m c| ≤ U ∧
      |A.meanWind p (A.zSpace a.d3 (2 ^ a.l3 + 1) c) - m c| ≤ P)
    {η ε ν : ℝ} (hη : 0 ≤ η) (hε : 0 ≤ ε) (hν : 0 ≤ ν) {i d : ℕ} (hi : i < n) {w : g.Cell → ℝ}
    (hw : WindRounded A.toFmt g ((cs.map Prod.fst).sum + i) p (A.shearHalf L E0 b' (Spec.freqComp A.toFmt a g)) (A.normOf a g)
      (A.noiseStd a.d1 a.d2 a.d3 a.l1 a.l2 a.l3) η ε ν d w) :
    let J := (cs.map Prod.fst).sum + i
    ∃ u : g.Cell → ℝ, (∀ (r : Fin g.Nx) (b : Fin g.Ny) (c : Fin g.Nz), f.val? (J * g.Nx + r) b c = some fun k => fin (u (r, b, c, k))) ∧
      Real.sqrt ((∑ x, (w x - u x) ^ 2) / (g.Nx * g.Ny * g.Nz * 3 : ℕ)) ≤
        (Real.exp ((d / 2 + 4) * A.e) - 1) + (Real.exp A.e - 1) * U + Real.exp A.e * P +
        2 * ((1 + η) ^ 2 * (1 + 48 * B ^ 2 * (Real.exp (484 * B ^ 2 * (α + 38 * A.e) + (11 + 5 * R) * A.e) - 1)) * (1 + ε) * (1 + ν) *
            Real.exp (19 / 2 * A.e) - 1) *
          Spec.fieldBound g (24 * B ^ 3 * Real.sqrt (E0 * L ^ (11 / 3 : ℝ) / (4 * Real.pi))) J /
            Real.sqrt (∑ x, Spec.sampled g J x ^ 2) := by
  have e0 := A.e_nonneg
  have R0 := (abs_nonneg _).trans h1
  have B1 : 1 ≤ B := le_trans (by linarith [abs_nonneg (nnBeta net Gamma hr (Spec.freqAt g 0)).toReal]) (hgrid 0).1
  obtain ⟨c, hc⟩ : ∃ c, c = (net.linears.length * (dn + 1) + (dn + 25) / 2 : ℝ) := ⟨_, rfl⟩
  have c0 : 0 ≤ c := by rw [hc]; positivity
  rw [← hc] at hα
  have n0 := abs_nonneg net.nu
  have small : ρ * (c * A.e) ≤ 1 / 3 := by
    have B2 : 1 ≤ B ^ 2 := one_le_pow₀ B1
    have q0 : 0 ≤ ρ * (c * A.e) := by positivity
    have q1 : 8 * (ρ * (c * A.e)) ≤ (|net.nu| + 2) * (4 * (ρ * (c * A.e))) := by nlinarith
    have q2 : 0 ≤ (|net.nu| + 2) * ((2 * R + 6) * A.e) := by positivity
    have q3 : 8 * (ρ * (c * A.e)) ≤ α + 38 * A.e := by rw [hα]; linarith
    have q4 : α + 38 * A.e ≤ B ^ 2 * (α + 38 * A.e) := le_mul_of_one_le_left (by linarith) B2
    linarith
  have ec : 9 * A.e + (net.linears.length * (dn + 1) + (dn + 7) / 2) * A.e = c * A.e := by rw [hc]; ring
  have life : ∀ k, ∃ b, nnBeta net Gamma hr (Spec.freqAt g k) = fin b ∧ LogNear α b (b' (Spec.freqComp A.toFmt a g k)) := fun k => by
    obtain ⟨m1, m2, m3⟩ := freqComp_near A.toFmt h k
    obtain ⟨b, hb1, hb2⟩ := C152_lifetime A he hlen hact (Gamma := Gamma) (t := 9 * A.e) (R := R) (by positivity) m1 m2 m3 hρ (hgrid k).2.2
      (by rw [ec]; exact small) (hb _)
    refine ⟨b, hb1, hb2.mono (le_of_eq ?_)⟩
    rw [ec, max_eq_left R0, hα]
    ring
  exact C147_shear A ha h hlow (B := B) hL hE h1 (b := fun p => (nnBeta net Gamma hr p).toReal) (b' := b')
    (fun k => by
      obtain ⟨b, hb1, -⟩ := life k
      rw [hk]
      change nnKernel net L E0 Gamma hr _ = _
      unfold nnKernel
      rw [hb1, toReal_fin])
    (fun k => by
      obtain ⟨b, hb1, hb2⟩ := life k
      rw [hb1, toReal_fin]
      exact hb2)
    (fun k => ⟨(hgrid k).1, (hgrid k).2.1⟩) hs hcs hf hm hη hε hν hi hw

/-! ### The fit -/

/-- **C152** The lifetime of type TAUNET in the fit: the error in units of `e`. -/
theorem C152_fit_lifetime (A : Fmt) (he : A.e ≤ 1) {d : ℕ} {net : TauNet} (hlen : net.linears.length = net.activations.length + 1)
    (hact : ∀ f ∈ net.activations, Spec.Contracts f) (hyp : ℝ → ℝ) (logL logT : ℝ) {ρ R : ℝ} {k : K3} (hρ : 1 ≤ ρ)
    (hk : let x := [|k.k1 * Real.exp logL|, |k.k2 * Real.exp logL|, |k.k3 * Real.exp logL|]
      let m := vecNorm (net.mlpForward x)
      0 < m ∧ vecNorm (Spec.majorant net x) ≤ ρ * m ∧ |Real.log m| ≤ R ∧ Real.log (1 + m * m) ≤ R)
    (hs : ρ * (net.linears.length * (d + 1) + (d + 9) / 2) * A.e ≤ 1 / 3) {b' : ℝ}
    (hb : A.FitNetOf d net (A.expF logL) (A.expF logT) k b') :
    ∃ b, eddyLifetime hyp (.taunet net) (Real.exp logL) (Real.exp logT) k = fin b ∧
      LogNear (((|net.nu| + 2) * (4 * ρ * (net.linears.length * (d + 1) + (d + 9) / 2) + 2 * R + 6) + 3) * A.e) b b' := by
  obtain ⟨hm, hN, l1, l2⟩ := hk
  obtain ⟨τ, hτ, rfl⟩ := hb
  have hin : ∀ u : ℝ, LogNear (2 * A.e) (u * Real.exp logL) (A.mul u (A.expF logL)) := fun u =>
    (A.mul_near (LogNear.refl u) (A.exp_near logL)).mono (le_of_eq (by ring))
  obtain ⟨b, hb1, hb2⟩ := forward_near A he hlen hact (hin k.k1) (hin k.k2) (hin k.k3) hρ hm hN l1 l2 rfl
    (by rw [show ρ * (2 * A.e + (net.linears.length * (d + 1) + (d + 5) / 2) * A.e) =
      ρ * (net.linears.length * (d + 1) + (d + 9) / 2) * A.e by ring]; exact hs) hτ
  have hadd : LogNear ((|net.nu| + 2) * (4 * ρ * (2 * A.e + (net.linears.length * (d + 1) + (d + 5) / 2) * A.e) + (2 * R + 6) * A.e) + A.e)
      b (A.add 0 τ) := by
    have := hb2.trans (A.rnd_near τ)
    unfold Fmt.add
    rwa [zero_add]
  refine ⟨Real.exp logT * b, ?_, (A.mul_near (A.exp_near logT) hadd).mono (le_of_eq (by ring))⟩
  unfold eddyLifetime
  simp only [hb1, fin_add_fin, zero_add, fin_mul_fin]

/-- **C152** The spectra of a DRD model in the fit, computed with the lifetimes of the network: the bound of C144 with any `R` that is, up
to seven, at least the error of the lifetimes in units of `e`. -/
theorem C152_spectra (A : ShearFmt) (he : A.e ≤ 1) (s : OPS) {net : TauNet} (hty : s.params.ty = .taunet net)
    (hlen : net.linears.length = net.activations.length + 1) (hact : ∀ f ∈ net.activations, Spec.Contracts f)
    (hfin : s.params.LifetimeFinite) (hg : s.grid.Pairwise (· < ·)) {k1 R Q B r ρ : ℝ} {dn : ℕ}
    (hk : 0 < k1) (hr : ∀ x ∈ s.grid, |x| ≤ r) (B0 : 0 ≤ B) (hρ : 1 ≤ ρ) (hL : |s.logL| ≤ R)
    (hR : (|net.nu| + 2) * (4 * ρ * (net.linears.length * (dn + 1) + (dn + 9) / 2) + 2 * Q + 6) + 3 ≤ 7 + R)
    (hs : ρ * (net.linears.length * (dn + 1) + (dn + 9) / 2) * A.e ≤ 1 / 3)
    (hpt : ∀ k2 ∈ s.grid, ∀ k3 ∈ s.grid,
      let β := (eddyLifetime s.hyp s.params.ty (Real.exp s.logL) (Real.exp s.logT) ⟨k1, k2, k3⟩).toReal
      let x := [|k1 * Real.exp s.logL|, |k2 * Real.exp s.logL|, |k3 * Real.exp s.logL|]
      let m := vecNorm (net.mlpForward x)
      |β| ≤ B ∧ |Real.log (Real.exp s.logL * Real.sqrt (k1 ^ 2 + k2 ^ 2 + (k3 + β * k1) ^ 2))| ≤ R ∧
      0 < m ∧ vecNorm (Spec.majorant net x) ≤ ρ * m ∧ |Real.log m| ≤ Q ∧ Real.log (1 + m * m) ≤ Q)
    (hK : 416 * ((1 + B) ^ 2 * (9 + R)) * A.e ≤ 1) {b : K3 → ℝ}
    (hb : ∀ k, A.FitNetOf dn net (A.expF s.logL) (A.expF s.logT) k (b k)) {v : Fin 6 → ℝ} {d : ℕ}
    (hv : A.SpectraOf s.sp s.logL s.logM b s.grid k1 v d) :
    ∃ uu vv ww uw vw uv : ℝ, (OPS.forward [k1] s).1 = .ok [[fin uu], [fin vv], [fin ww], [fin uw], [fin vw], [fin uv]] ∧
      let err := 513 * (1 + B) ^ 4 * (Real.exp (((4 * Spec.spectrumGain s.sp + 940) * ((1 + B) ^ 2 * (9 + R)) + 2 * d) * A.e) - 1) *
        (uu + vv + ww)
      |v 0 - uu| ≤ err ∧ |v 1 - vv| ≤ err ∧ |v 2 - ww| ≤ err ∧ |v 3 - uw| ≤ err + 12e-12 * k1 * r ^ 2 ∧ |v 4 - vw| ≤ err ∧
      |v 5 - uv| ≤ err := by
  refine C144_spectra A s hfin hg hk hr B0 b hL (fun k2 h2 k3 h3 => ?_) hK hv
  obtain ⟨p1, p2, p3⟩ := hpt k2 h2 k3 h3
  refine ⟨p1, ?_, p2⟩
  obtain ⟨β, e1, e2⟩ := C152_fit_lifetime A.toFmt he hlen hact s.hyp s.logL s.logT (k := ⟨k1, k2, k3⟩) hρ p3 hs (hb _)
  rw [hty, e1, toReal_fin]
  exact e2.mono (mul_le_mul_of_nonneg_right hR A.e_nonneg)

/-! ### Exact arithmetic -/

theorem summation_exact {l : List ℝ} {s : ℝ} {d : ℕ} (h : Summation Fmt.exact l s d) : s = l.sum := by
  have e0 : Fmt.exact.e = 0 := by simp [Fmt.e, Fmt.exact]
  have := h.scale
  rw [e0, mul_zero] at this
  exact this.eq_of_zero

theorem linearOf_exact {d : ℕ} {W : List (List ℝ)} {x y : List ℝ} (h : Fmt.exact.LinearOf d W x y) : y = linear W x := by
  unfold Fmt.LinearOf at h
  unfold linear
  induction h with
  | nil => rfl
  | cons hs _ ih =>
    obtain ⟨d', -, hs⟩ := hs
    rw [List.map_cons, ← ih, summation_exact hs]
    rfl

theorem layersOf_exact {d : ℕ} {ls : List (List (List ℝ) × (List ℝ → List ℝ))} {x z : List ℝ} (h : Fmt.exact.LayersOf d ls x z) :
    z = ls.foldl (fun out la => la.2 (linear la.1 out)) x := by
  induction h with
  | nil x => rfl
  | cons hl _ ih => rw [ih, linearOf_exact hl]; rfl

/-- **C152** In exact arithmetic the rounded network, with any activations, is the network of the model, and so are the two lifetimes. -/
theorem C152_exact {d : ℕ} (net : TauNet) :
    (∀ x y, Fmt.exact.MlpOf d net x y → y = net.mlpForward x) ∧
    (∀ k τ, 0 < vecNorm (net.mlpForward (k.map fun t => |t|)) → Fmt.exact.ForwardOf d net k τ → net.forward k = fin τ) ∧
    (∀ Gamma h k b, (k.vec ≠ 0 → 0 < vecNorm (net.mlpForward [|k.k1 * h|, |k.k2 * h|, |k.k3 * h|])) →
      ShearFmt.exact.NnBetaOf d net Gamma h k b → nnBeta net Gamma h k = fin b) ∧
    ∀ hyp logL logT k b, 0 < vecNorm (net.mlpForward [|k.k1 * Real.exp logL|, |k.k2 * Real.exp logL|, |k.k3 * Real.exp logL|]) →
      Fmt.exact.FitNetOf d net (Real.exp logL) (Real.exp logT) k b →
      eddyLifetime hyp (.taunet net) (Real.exp logL) (Real.exp logT) k = fin b := by
  have mlp : ∀ x y, Fmt.exact.MlpOf d net x y → y = net.mlpForward x := by
    rintro x y ⟨h, out, h1, h2, rfl⟩
    rw [linearOf_exact h2, layersOf_exact h1]
    rfl
  have fwd : ∀ k τ, 0 < vecNorm (net.mlpForward (k.map fun t => |t|)) → Fmt.exact.ForwardOf d net k τ → net.forward k = fin τ := by
    rintro k τ hp ⟨y, m, hy, ⟨d', -, s, hs, rfl⟩, rfl⟩
    rw [mlp _ _ hy] at hs
    have hm : Fmt.exact.sqrt s = vecNorm (net.mlpForward (k.map fun t => |t|)) := by
      rw [summation_exact hs]; rfl
    rw [hm]
    unfold TauNet.forward
    simp only
    rw [rational_pos _ hp]
    unfold Fmt.rational
    simp only [abs_of_pos hp]
    rfl
  refine ⟨mlp, fwd, ?_, ?_⟩
  · intro Gamma h k b hp hb
    unfold ShearFmt.NnBetaOf at hb
    unfold nnBeta
    have e : ShearFmt.exact.sumsq k.k1 k.k2 k.k3 = k.k1 ^ 2 + k.k2 ^ 2 + k.k3 ^ 2 := by
      rw [pow_two, pow_two, pow_two]; rfl
    rw [e] at hb
    by_cases hk : k.k1 ^ 2 + k.k2 ^ 2 + k.k3 ^ 2 = 0
    · simp only [hk, ↓reduceIte] at hb ⊢
      rw [hb]
    · simp only [hk, ↓reduceIte] at hb ⊢
      obtain ⟨τ, hτ, rfl⟩ := hb
      have hv : k.vec ≠ 0 := fun h => hk (by
        have z1 : k.k1 = 0 := congrFun h 0
        have z2 : k.k2 = 0 := congrFun h 1
        have z3 : k.k3 = 0 := congrFun h 2
        rw [z1, z2, z3]; ring)
      have := fwd [k.k1 * h, k.k2 * h, k.k3 * h] τ (hp hv) hτ
      rw [this, fin_mul_fin]
      rfl
  · rintro hyp logL logT k b hp ⟨τ, hτ, rfl⟩
    have := fwd [k.k1 * Real.exp logL, k.k2 * Real.exp logL, k.k3 * Real.exp logL] τ hp hτ
    unfold eddyLifetime
    simp only [this, fin_add_fin, fin_mul_fin]
    rfl

/-! ### Cases -/

/-- A network with one hidden layer of two neurons and nonnegative weights. -/
def smallNet : TauNet := ⟨[[[1, 0, 1], [2, 1, 0]], [[1, 0], [0, 1], [1, 1]]], [reluVec], -1 / 3⟩

theorem linearOf_exists (A : Fmt) {d : ℕ} {W : List (List ℝ)} (hW : ∀ row ∈ W, row.length ≤ d) (x : List ℝ) :
    ∃ y, A.LinearOf d W x y := by
  induction W with
  | nil => exact ⟨[], .nil⟩
  | cons row W ih =>
    obtain ⟨y, hy⟩ := ih fun r hr => hW r (List.mem_cons_of_mem _ hr)
    obtain ⟨s, hs⟩ := Summation.foldl (A := A) (List.zipWith A.mul row x)
    refine ⟨s :: y, .cons ⟨_, ?_, hs⟩ hy⟩
    rw [List.length_zipWith]
    exact (Nat.min_le_left _ _).trans (hW row (by simp))

/-- **C152** The computation always has a result: the sums may be formed from left to right. -/
theorem C152_computes (A : ShearFmt) {d : ℕ} {net : TauNet} (hd : 3 ≤ d) (hW : ∀ W ∈ net.linears, ∀ row ∈ W, row.length ≤ d)
    (Gamma h : ℝ) (k : K3) : ∃ b, A.NnBetaOf d net Gamma h k b := by
  unfold ShearFmt.NnBetaOf
  by_cases hk : A.sumsq k.k1 k.k2 k.k3 = 0
  · simp only [hk, ↓reduceIte]; exact ⟨0, rfl⟩
  · simp only [hk, ↓reduceIte]
    have layers : ∀ (ls : List (List (List ℝ) × (List ℝ → List ℝ))) (x : List ℝ), (∀ l ∈ ls, ∀ row ∈ l.1, row.length ≤ d) →
        ∃ z, A.LayersOf d ls x z := by
      intro ls
      induction ls with
      | nil => intro x _; exact ⟨x, .nil x⟩
      | cons l ls ih =>
        intro x hl
        obtain ⟨y, hy⟩ := linearOf_exists A.toFmt (hl l (by simp)) x
        obtain ⟨z, hz⟩ := ih (l.2 y) fun m hm => hl m (List.mem_cons_of_mem _ hm)
        exact ⟨z, .cons hy hz⟩
    obtain ⟨z, hz⟩ := layers (net.linears.dropLast.zip net.activations) ([A.mul k.k1 h, A.mul k.k2 h, A.mul k.k3 h].map fun t => |t|)
      fun l hl => hW l.1 (List.mem_of_mem_dropLast (List.of_mem_zip hl).1)
    have hlast : ∀ row ∈ net.linears.getLastD [], row.length ≤ d := by
      by_cases hne : net.linears = []
      · rw [hne]; simp
      · refine hW _ ?_
        rw [List.getLastD_eq_getLast?, List.getLast?_eq_some_getLast hne]; exact List.getLast_mem hne
    obtain ⟨out, ho⟩ := linearOf_exists A.toFmt hlast z
    obtain ⟨s, hs⟩ := Summation.foldl (A := A.toFmt)
      ((List.zipWith A.add ([A.mul k.k1 h, A.mul k.k2 h, A.mul k.k3 h].map fun t => |t|) out).map A.sq)
    refine ⟨_, _, ⟨_, _, ⟨z, out, hz, ho, rfl⟩, ⟨_, ?_, s, hs, rfl⟩, rfl⟩, rfl⟩
    rw [List.length_map, List.length_zipWith]
    exact (Nat.min_le_left _ _).trans (by simpa using hd)

/-- The hypotheses of `C152_lifetime` in double precision for this network at `(1, 2, 2)`, where the norm is `√133`: `ρ = 1`, and the
computed lifetime has a relative error below `4e-14`. -/
example (A : ShearFmt) (hv : A.v ≤ 1 / 2 ^ 52) {b' : ℝ} (hb : A.NnBetaOf 3 smallNet 1 1 ⟨1, 2, 2⟩ b') :
    ∃ b, nnBeta smallNet 1 1 ⟨1, 2, 2⟩ = fin b ∧ LogNear 4e-14 b b' := by
  have h := A.e_le
  have h1 : A.v / (1 - A.v) ≤ 2.23e-16 := by
    rw [div_le_iff₀ (by linarith)]
    linarith
  have h2 : A.e ≤ 2.23e-16 := h.trans h1
  have e0 := A.e_nonneg
  have mlp : smallNet.mlpForward [1, 2, 2] = [4, 6, 9] := by
    norm_num [smallNet, TauNet.mlpForward, linear, reluVec]
  have hW : ∀ W ∈ smallNet.linears, ∀ row ∈ W, ∀ w ∈ row, 0 ≤ w := by
    simp [smallNet]
  have maj : Spec.majorant smallNet [1, 2, 2] = smallNet.mlpForward [1, 2, 2] :=
    C152_nonneg rfl (by simp [smallNet]) hW (by simp)
  have nrm : vecNorm [4, 6, 9] = Real.sqrt 133 := by rw [vecNorm3]; norm_num
  have s1 : 1 ≤ Real.sqrt 133 := Real.one_le_sqrt.2 (by norm_num)
  have hx : [|(1:ℝ) * 1|, |(2:ℝ) * 1|, |(2:ℝ) * 1|] = [1, 2, 2] := by norm_num
  have hlog : Real.log 134 ≤ 5 := by
    rw [Real.log_le_iff_le_exp (by norm_num)]
    have := Real.exp_one_gt_d9
    calc (134:ℝ) ≤ 2.7 ^ 5 := by norm_num
      _ ≤ Real.exp 1 ^ 5 := pow_le_pow_left₀ (by norm_num) (by linarith) 5
      _ = Real.exp 5 := by rw [← Real.exp_nat_mul]; norm_num
  obtain ⟨b, hb1, hb2⟩ := C152_lifetime A (by linarith) (net := smallNet) rfl
    (fun f hf => by simp only [smallNet, List.mem_singleton] at hf; rw [hf]; exact reluVec_contracts) (t := 0) (ρ := 1) (R := 5) le_rfl
    (k := ⟨1, 2, 2⟩) (LogNear.refl _) (LogNear.refl _) (LogNear.refl _) le_rfl (Gamma := 1) (h := 1)
    (fun _ => by
      simp only
      rw [hx, maj, mlp, nrm]
      refine ⟨by linarith, by linarith, ?_, ?_⟩
      · rw [abs_of_nonneg (Real.log_nonneg s1)]
        refine (Real.log_le_log (by linarith) ?_).trans hlog
        rw [Real.sqrt_le_left (by norm_num)]; norm_num
      · rw [Real.mul_self_sqrt (by norm_num)]; norm_num; exact hlog)
    (by norm_num [smallNet]; linarith) hb
  refine ⟨b, hb1, hb2.mono ?_⟩
  have : |smallNet.nu| = 1 / 3 := by norm_num [smallNet, abs_of_neg]
  rw [this, show (smallNet.linears.length : ℝ) = 2 by norm_num [smallNet]]
  norm_num
  linarith

/-- The hypotheses of `C152_spectra` on the constants hold for this network in double precision with `Q = 5`, `R = 164` and lifetimes up
to nine, and the lifetimes are computed with at most 171 units of error. -/
example (A : ShearFmt) (hv : A.v ≤ 1 / 2 ^ 52) :
    A.e ≤ 1 ∧ (|smallNet.nu| + 2) * (4 * 1 * (smallNet.linears.length * ((3 : ℕ) + 1) + ((3 : ℕ) + 9) / 2) + 2 * 5 + 6) + 3 ≤ (7:ℝ) + 164 ∧
    1 * (smallNet.linears.length * ((3 : ℕ) + 1) + ((3 : ℕ) + 9) / 2) * A.e ≤ 1 / 3 ∧ 416 * ((1 + 9) ^ 2 * (9 + 164)) * A.e ≤ 1 := by
  have h := A.e_le
  have h1 : A.v / (1 - A.v) ≤ 2.23e-16 := by
    rw [div_le_iff₀ (by linarith)]
    linarith
  have h2 : A.e ≤ 2.23e-16 := h.trans h1
  have : |smallNet.nu| = 1 / 3 := by norm_num [smallNet, abs_of_neg]
  rw [this, show (smallNet.linears.length : ℝ) = 2 by norm_num [smallNet]]
  refine ⟨by linarith, by norm_num, ?_, ?_⟩
  · norm_num; linarith
  · linarith

end
end Verif
