import Verif.Props.RoundingInterp
import Verif.Props.RoundingWind
import Verif.Props.LowFreqMoments

/-!
# C151: the wind field with a low-frequency part in floating point arithmetic
-/

namespace Verif

noncomputable section
open Classical Fl

/-- Root mean square. -/
def Spec.rms {ι : Type*} [Fintype ι] (f : ι → ℝ) : ℝ := Real.sqrt ((∑ x, f x ^ 2) / Fintype.card ι)

theorem rms_eq {ι : Type*} [Fintype ι] (f : ι → ℝ) : Spec.rms f = wnorm (fun _ => (1 / (Fintype.card ι) : ℝ)) f := by
  unfold Spec.rms wnorm
  congr 1
  rw [Finset.sum_div]
  refine Finset.sum_congr rfl fun i _ => ?_
  rw [Real.norm_eq_abs, sq_abs]; ring

theorem rms_smul {ι : Type*} [Fintype ι] {α : ℝ} (h : 0 ≤ α) (f : ι → ℝ) : Spec.rms (fun x => α * |f x|) = α * Spec.rms f := by
  unfold Spec.rms
  rw [← Real.sqrt_sq h, ← Real.sqrt_mul (sq_nonneg _), Real.sqrt_sq h]
  congr 1
  rw [mul_div_assoc', Finset.mul_sum]
  congr 1
  exact Finset.sum_congr rfl fun i _ => by rw [mul_pow, sq_abs]

theorem rms_const {ι : Type*} [Fintype ι] [Nonempty ι] {c : ℝ} (h : 0 ≤ c) : Spec.rms (fun _ : ι => c) = c := by
  unfold Spec.rms
  have : (0 : ℝ) < Fintype.card ι := by exact_mod_cast Fintype.card_pos
  rw [Finset.sum_const, Finset.card_univ, nsmul_eq_mul, mul_div_cancel_left₀ _ this.ne', Real.sqrt_sq h]

theorem rms_three_le {ι : Type*} [Fintype ι] [Nonempty ι] {f p q : ι → ℝ} {α β c : ℝ} (hα : 0 ≤ α) (hβ : 0 ≤ β) (hc : 0 ≤ c)
    (h : ∀ x, |f x| ≤ α * |p x| + β * |q x| + c) : Spec.rms f ≤ α * Spec.rms p + β * Spec.rms q + c := by
  have hw : ∀ i : ι, (0 : ℝ) ≤ (fun _ : ι => (1 / (Fintype.card ι) : ℝ)) i := fun i => by positivity
  have h1 : Spec.rms f ≤ Spec.rms (fun x => (α * |p x| + β * |q x|) + c) := by
    rw [rms_eq, rms_eq]
    refine wnorm_mono hw fun x => ?_
    rw [Real.norm_eq_abs, Real.norm_eq_abs]
    exact (h x).trans (le_abs_self _)
  have h2 : Spec.rms (fun x => (α * |p x| + β * |q x|) + c) ≤ Spec.rms (fun x => α * |p x| + β * |q x|) + Spec.rms (fun _ : ι => c) := by
    rw [rms_eq, rms_eq, rms_eq]; exact wnorm_add_le hw _ _
  have h3 : Spec.rms (fun x => α * |p x| + β * |q x|) ≤ Spec.rms (fun x => α * |p x|) + Spec.rms (fun x => β * |q x|) := by
    rw [rms_eq, rms_eq, rms_eq]; exact wnorm_add_le hw _ _
  rw [rms_smul hα, rms_smul hβ] at h3
  rw [rms_const hc] at h2
  linarith

/-- One rounded addition. -/
theorem add_abs (A : Fmt) {w v u z E Q B : ℝ} (h1 : |w - u| ≤ E) (h2 : |v - z| ≤ Q) (h3 : |u + z| ≤ B) :
    |A.add w v - (u + z)| ≤ (1 + A.e) * (E + Q) + A.e * B := by
  have a2 : |w + v - (u + z)| ≤ E + Q := by
    have := abs_add_le (w - u) (v - z)
    rw [show w + v - (u + z) = (w - u) + (v - z) by ring]
    linarith
  have := A.rnd_abs a2 h3
  unfold Fmt.add
  linarith

/-- Calls that return with a low-frequency part return without it. -/
theorem run_ok_of_low {g g' : Gen} (hg : g.Good) (hl : g.LowReady) (hg' : g'.Good) (hl' : g'.LowReady)
    (hb : ∀ j, (g'.block j).any → (g.block j).any) (cs : List (ℕ × ProfileArgs)) : ∀ (j : ℕ) (tot tot' : Arr Fl),
    tot.n2 = g.Ny ∧ tot.n3 = g.Nz → tot'.n2 = g'.Ny ∧ tot'.n3 = g'.Nz →
    (∀ r ∈ (Gen.run cs (g'.st j tot')).1, ∃ f, r = .ok f) → ∀ r ∈ (Gen.run cs (g.st j tot)).1, ∃ f, r = .ok f := by
  induction cs with
  | nil => intro j tot tot' _ _ _ r hr; cases hr
  | cons c cs ih =>
    obtain ⟨n, p⟩ := c
    intro j tot tot' ht ht' hok r hr
    unfold Gen.run at hr hok
    rcases generate_st hg' hl' p n j ht' with ⟨h1, h2⟩ | ⟨k, -, -, -, h4⟩
    swap
    · rw [h4] at hok
      obtain ⟨f, hf⟩ := hok (.error .valueError) (by simp)
      cases hf
    rw [h2] at hok
    rcases generate_st hg hl p n j ht with ⟨-, h5⟩ | ⟨k, hk, -, h6, -⟩
    swap
    · exact absurd ⟨hb _ (h1 k hk).1, (h1 k hk).2⟩ h6
    rw [h5] at hr
    simp only [List.mem_cons] at hr
    rcases hr with rfl | hr
    · exact ⟨_, rfl⟩
    · exact ih (j + n) _ (g'.ext tot' (g'.outs p 0 j n)) ⟨rfl, rfl⟩ ⟨rfl, rfl⟩ (fun r hr => hok r (by simp [hr])) r hr

section
variable {env : GenEnv} {a : GenArgs} {g : Gen} {q : ℕ}

/-- **C151** Attaching a low-frequency model adds the interpolated low-frequency part to the values and changes nothing else; calls that
return with it return without it. -/
theorem C151_values (ha : a.PosScales) (h : genInit env a = (.ok g, q)) (hnone : a.low = none)
    [NeZero g.shape1.toNat] [NeZero g.shape2.toNat] [NeZero g.shape3.toNat] {cfg : LFConfig} (hc : cfg.Pos) {lf : LowFreq}
    (hlf : lfInit cfg = .ok lf) :
    ∃ g' q', genInit env { a with low := some cfg } = (.ok g', q') ∧
      ∀ cs : List (ℕ × ProfileArgs), (∀ r ∈ (g'.run cs).1, ∃ f, r = .ok f) → ∀ (p : ProfileArgs) (n : ℕ) (f : Arr Fl),
        ((g'.run cs).2.generate p n).1 = .ok f →
        (∀ r ∈ (g.run cs).1, ∃ f, r = .ok f) ∧ ∃ f0, ((g.run cs).2.generate p n).1 = .ok f0 ∧
          ∀ i < n, ∀ (r : Fin g.Nx) (b : Fin g.Ny) (c : Fin g.Nz), ∃ w0 w,
            f0.val? (((cs.map Prod.fst).sum + i) * g.Nx + r) b c = some w0 ∧
            f.val? (((cs.map Prod.fst).sum + i) * g.Nx + r) b c = some w ∧
            ∀ k, w k = w0 k + fin (Spec.lowPart lf (Spec.lowField lf env.glob env.globPos) k
              (Spec.lowPoint a lf i r b).1 (Spec.lowPoint a lf i r b).2) := by
  have hg := genInit_good ha h
  obtain ⟨K, L, T, hs, hf, hl, ⟨d1, d2, d3⟩, ⟨l1, l2, l3⟩, -, -, hk, -, -, -, hno, -⟩ := genInit_ok h
  have hl0 := hno hnone
  obtain ⟨fu, q', hi2⟩ := genInit_low hnone h hc hlf
  refine ⟨_, q', hi2, ?_⟩
  obtain ⟨u, hu⟩ : ∃ u, u = Spec.lowField lf env.glob env.globPos := ⟨_, rfl⟩
  rw [← hu]
  obtain ⟨g', hg'⟩ : ∃ g' : Gen, g' = { g with low := some { lf with full := fu, u := some u } } := ⟨_, rfl⟩
  rw [← hg']
  intro cs hcs p n f hfn
  have hgood : g'.Good := by rw [hg']; exact hg
  have hready : g'.LowReady := by
    rw [hg']
    intro lf0 h0
    obtain rfl := Option.some.inj h0
    exact ⟨u, rfl⟩
  have hfresh : g'.Fresh := by rw [hg']; exact hf
  have eNx : g'.Nx = g.Nx := by rw [hg']; rfl
  have eNy : g'.Ny = g.Ny := by rw [hg']; rfl
  have eNz : g'.Nz = g.Nz := by rw [hg']; rfl
  have hblk : ∀ j, g'.block j = g.block j := by rw [hg']; intro j; rfl
  have hrun0 : ∀ r ∈ (g.run cs).1, ∃ f, r = .ok f := by
    have := run_ok_of_low hg hl hgood hready (fun j hj => by rw [← hblk]; exact hj) cs 0 ⟨g.Ny, g.Nz, []⟩ ⟨g'.Ny, g'.Nz, []⟩
      ⟨rfl, rfl⟩ ⟨rfl, rfl⟩
    rw [hf.st, hfresh.st] at this
    exact this hcs
  refine ⟨hrun0, ?_⟩
  obtain ⟨j, k, tot, e, sh, -, -, -, hall⟩ := run_st hgood hready cs 0 0 ⟨g'.Ny, g'.Nz, []⟩
    ⟨rfl, rfl, by simp, fun p hp => by cases hp⟩
  rw [hfresh.st] at e hall
  obtain ⟨hk', hj'⟩ := hall hcs
  rw [zero_add] at hk' hj'
  obtain ⟨j0, k0, tot0, e0, sh0, -, -, -, hall0⟩ := run_st hg hl cs 0 0 ⟨g.Ny, g.Nz, []⟩
    ⟨rfl, rfl, by simp, fun p hp => by cases hp⟩
  rw [hf.st] at e0 hall0
  obtain ⟨hk0, hj0⟩ := hall0 hrun0
  rw [zero_add] at hk0 hj0
  rw [e] at hfn
  rcases generate_st hgood hready p n j ⟨sh.1, sh.2.1⟩ with ⟨h1, h2⟩ | ⟨m, -, -, -, h4⟩
  swap
  · rw [h4] at hfn; cases hfn
  rw [h2] at hfn
  obtain rfl := Except.ok.inj hfn
  rcases generate_st hg hl p n j0 ⟨sh0.1, sh0.2.1⟩ with ⟨-, h5⟩ | ⟨m, hm, -, h6, -⟩
  swap
  · refine absurd ?_ h6
    have := h1 m hm
    rw [hj0, ← hj', ← hblk]
    exact this
  rw [e0, h5]
  refine ⟨_, rfl, fun i hi r b c => ⟨g.outAt p (0 + i) (j0 + i) r b c, g'.outAt p (0 + i) (j + i) r b c, ?_, ?_, ?_⟩⟩
  · have := ext_val? g tot0 p 0 j0 n i r b c hi r.isLt b.isLt c.isLt
    rw [sh0.2.2.1, hk0] at this
    rw [← this]
    congr 1
    ring
  · have := ext_val? g' tot p 0 j n i r b c hi (by rw [eNx]; exact r.isLt) (by rw [eNy]; exact b.isLt) (by rw [eNz]; exact c.isLt)
    rw [sh.2.2.1, hk', eNx] at this
    rw [← this]
    congr 1
    ring
  · have hN1 : (g.Nx : ℝ) = 2 ^ a.l1 + 1 := by unfold Gen.Nx; rw [l1]; push_cast; rfl
    have hN2 : (g.Ny : ℝ) = 2 ^ a.l2 + 1 := by unfold Gen.Ny; rw [l2]; push_cast; rfl
    have hx : ((i : ℝ) + (r : ℝ) / g.Nx) * g.d1 = (Spec.lowPoint a lf i r b).1 := by
      unfold Spec.lowPoint
      rw [hN1, d1]
      have : (2 : ℝ) ^ a.l1 + 1 ≠ 0 := by positivity
      field_simp
    have hy : lf.userL2 / 2 - g.d2 / 2 + (b : ℝ) * (g.d2 / g.Ny) = (Spec.lowPoint a lf i r b).2 := by
      unfold Spec.lowPoint
      rw [hN2, d2]
      ring
    have hprof : g'.profileAt p c = g.profileAt p c := by rw [hg']; rfl
    have hlowAt : g'.lowAt i r b = (Spec.lowPart lf u 0 (Spec.lowPoint a lf i r b).1 (Spec.lowPoint a lf i r b).2,
        Spec.lowPart lf u 1 (Spec.lowPoint a lf i r b).1 (Spec.lowPoint a lf i r b).2) := by
      rw [← hx, ← hy, hg']
      rfl
    have hsome : g'.low ≠ none := by rw [hg']; simp
    intro k
    rw [zero_add, hj', hj0]
    fin_cases k
    · change fin _ + _ + (if g'.low = none then fin 0 else fin (g'.lowAt i r b).1) = (fin _ + _ + (if g.low = none then fin 0 else _)) + _
      rw [if_neg hsome, if_pos hl0, hlowAt, hprof, hblk, add_fin_zero]
      rfl
    · change fin _ + (if g'.low = none then fin 0 else fin (g'.lowAt i r b).2) = (fin _ + (if g.low = none then fin 0 else _)) + _
      rw [if_neg hsome, if_pos hl0, hlowAt, hblk, add_fin_zero]
      rfl
    · change fin _ = fin _ + _
      rw [hblk]
      simp [Spec.lowPart, add_fin_zero]

variable [NeZero g.shape1.toNat] [NeZero g.shape2.toNat] [NeZero g.shape3.toNat]

/-- A normalised block has root mean square one. -/
theorem rms_normalised {ι : Type*} [Fintype ι] {f : ι → ℝ} (h : ∃ x, f x ≠ 0) :
    Spec.rms (fun x => f x / Real.sqrt ((∑ x, f x ^ 2) / Fintype.card ι)) = 1 := by
  obtain ⟨x, hx⟩ := h
  have hS : 0 < ∑ x, f x ^ 2 := lt_of_lt_of_le (by positivity) (Finset.single_le_sum (f := fun x => f x ^ 2)
    (fun i _ => sq_nonneg _) (Finset.mem_univ x))
  have hN : (0 : ℝ) < Fintype.card ι := by exact_mod_cast Fintype.card_pos_iff.2 ⟨x⟩
  unfold Spec.rms
  simp only [div_pow]
  rw [← Finset.sum_div, Real.sq_sqrt (by positivity)]
  rw [show (∑ x, f x ^ 2) / ((∑ x, f x ^ 2) / Fintype.card ι) / Fintype.card ι = 1 by field_simp, Real.sqrt_one]

/-- **C151** The wind field with a low-frequency part, in floating point arithmetic.  The calls that return would return without the low-frequency
part.  If the block without it is computed with an error of at most `E` in the root mean square (C145, C147) and the parts to be
added with an error of at most `Q` (C150), then the sums differ from the exact values by at most `(1 + e) (E + Q) + e (1 + U + V)`
in the root mean square, where `U` bounds the mean wind and `V` the low-frequency part. -/
theorem C151_rounded (A : Fmt) (ha : a.PosScales) (h : genInit env a = (.ok g, q)) (hnone : a.low = none) {cfg : LFConfig} (hc : cfg.Pos)
    {lf : LowFreq} (hlf : lfInit cfg = .ok lf) {g' : Gen} {q' : ℕ} (h' : genInit env { a with low := some cfg } = (.ok g', q'))
    {cs : List (ℕ × ProfileArgs)} (hcs : ∀ r ∈ (g'.run cs).1, ∃ f, r = .ok f) {p : ProfileArgs} {n : ℕ} {f : Arr Fl}
    (hf : ((g'.run cs).2.generate p n).1 = .ok f) :
    (∀ r ∈ (g.run cs).1, ∃ f, r = .ok f) ∧ ∃ f0, ((g.run cs).2.generate p n).1 = .ok f0 ∧
      ∀ (m : ℕ → ℝ) (U : ℝ), (∀ c < g.Nz, Spec.meanWind p (c * (a.d3 / 2 ^ a.l3)) = fin (m c) ∧ |m c| ≤ U) → ∀ i < n,
        let J := (cs.map Prod.fst).sum + i
        let low := fun (k : Fin 3) (r b : ℕ) => Spec.lowPart lf (Spec.lowField lf env.glob env.globPos) k
          (Spec.lowPoint a lf i r b).1 (Spec.lowPoint a lf i r b).2
        ∃ u0 u : g.Cell → ℝ,
          (∀ (r : Fin g.Nx) (b : Fin g.Ny) (c : Fin g.Nz), f0.val? (J * g.Nx + r) b c = some fun k => fin (u0 (r, b, c, k))) ∧
          (∀ (r : Fin g.Nx) (b : Fin g.Ny) (c : Fin g.Nz), f.val? (J * g.Nx + r) b c = some fun k => fin (u (r, b, c, k))) ∧
          ∀ (w : g.Cell → ℝ) (E Q V : ℝ) (v1 v2 : ℕ → ℕ → ℝ), Spec.rms (fun x => w x - u0 x) ≤ E →
            (∀ r < g.Nx, ∀ b < g.Ny, |v1 r b - low 0 r b| ≤ Q ∧ |v2 r b - low 1 r b| ≤ Q ∧ |low 0 r b| ≤ V ∧ |low 1 r b| ≤ V) →
            Spec.rms (fun x : g.Cell => A.lowSum (w x) (v1 x.1 x.2.1) (v2 x.1 x.2.1) x.2.2.2 - u x) ≤
              (1 + A.e) * (E + Q) + A.e * (1 + U + V) := by
  obtain ⟨g1, q1, h1, hval⟩ := C151_values ha h hnone hc hlf
  rw [h'] at h1
  obtain ⟨rfl, rfl⟩ : g' = g1 ∧ q' = q1 := by
    simp only [Prod.mk.injEq, Except.ok.injEq] at h1
    exact h1
  obtain ⟨hrun, f0, hf0, hv⟩ := hval cs hcs p n f hf
  refine ⟨hrun, f0, hf0, ?_⟩
  intro m U hm i hi J low
  obtain ⟨hnz, hu0⟩ := wind_values ha h hnone hrun hf0 (fun c hc => (hm c hc).1) hi
  obtain ⟨z, hz⟩ : ∃ z : g.Cell → ℝ, z = fun x => Spec.sampled g J x / Real.sqrt ((∑ x, Spec.sampled g J x ^ 2) / Fintype.card g.Cell) :=
    ⟨_, rfl⟩
  have hz1 : Spec.rms z = 1 := by rw [hz]; exact rms_normalised hnz
  refine ⟨fun x => z x + if x.2.2.2 = 0 then m x.2.2.1 else 0,
    fun x => z x + (if x.2.2.2 = 0 then m x.2.2.1 else 0) + low x.2.2.2 x.1 x.2.1, ?_, ?_, ?_⟩
  · intro r b c
    rw [hz]; exact hu0 r b c
  · intro r b c
    obtain ⟨w0, w, e0, e1, e2⟩ := hv i hi r b c
    rw [hu0 r b c] at e0
    have e0' := Option.some.inj e0
    rw [e1]
    congr 1
    funext k
    rw [e2 k, ← e0', hz]
    rfl
  · intro w E Q V v1 v2 hE hlow
    obtain ⟨x0, -⟩ := hnz
    have : Nonempty g.Cell := ⟨x0⟩
    have e0 := A.e_nonneg
    have hU0 : 0 ≤ U := (abs_nonneg _).trans (hm 0 (Nat.succ_pos _)).2
    have hl0 := hlow x0.1 x0.1.isLt x0.2.1 x0.2.1.isLt
    have hQ0 : 0 ≤ Q := (abs_nonneg _).trans hl0.1
    have hV0 : 0 ≤ V := (abs_nonneg _).trans hl0.2.2.1
    have key := rms_three_le (ι := g.Cell) (f := fun x : g.Cell => A.lowSum (w x) (v1 x.1 x.2.1) (v2 x.1 x.2.1) x.2.2.2 -
        (z x + (if x.2.2.2 = 0 then m x.2.2.1 else 0) + low x.2.2.2 x.1 x.2.1))
      (p := fun x => w x - (z x + if x.2.2.2 = 0 then m x.2.2.1 else 0)) (q := z) (α := 1 + A.e) (β := A.e)
      (c := (1 + A.e) * Q + A.e * (U + V)) (by linarith) e0 (by positivity) ?_
    · rw [hz1] at key
      have := mul_le_mul_of_nonneg_left hE (by linarith : 0 ≤ 1 + A.e)
      linarith
    · intro x
      beta_reduce
      obtain ⟨q1, q2, q3, q4⟩ := hlow x.1 x.1.isLt x.2.1 x.2.1.isLt
      have hmx : |(if x.2.2.2 = 0 then m x.2.2.1 else 0 : ℝ)| ≤ U := by
        by_cases h0 : x.2.2.2 = 0
        · rw [if_pos h0]; exact (hm _ x.2.2.1.isLt).2
        · rw [if_neg h0, abs_zero]; exact hU0
      have gen : ∀ v t : ℝ, |v - t| ≤ Q → |t| ≤ V →
          |A.add (w x) v - (z x + (if x.2.2.2 = 0 then m x.2.2.1 else 0) + t)| ≤
            (1 + A.e) * |w x - (z x + if x.2.2.2 = 0 then m x.2.2.1 else 0)| + A.e * |z x| + ((1 + A.e) * Q + A.e * (U + V)) := by
        intro v t hv ht
        have hb : |z x + (if x.2.2.2 = 0 then m x.2.2.1 else 0) + t| ≤ |z x| + U + V := by
          have t1 := abs_add_le (z x + if x.2.2.2 = 0 then m x.2.2.1 else 0) t
          have t2 := abs_add_le (z x) (if x.2.2.2 = 0 then m x.2.2.1 else 0)
          linarith
        have := add_abs A (w := w x) (le_refl _) hv hb
        linarith
      obtain ⟨r, b, c, k⟩ := x
      fin_cases k
      · exact gen _ _ q1 q3
      · exact gen _ _ q2 q4
      · change |w _ - (_ + _ + 0)| ≤ _
        rw [add_zero]
        have p1 : 0 ≤ A.e * |w (r, b, c, 2) - (z (r, b, c, 2) + if (2 : Fin 3) = 0 then m c else 0)| := by positivity
        have p2 : 0 ≤ A.e * |z (r, b, c, 2)| + ((1 + A.e) * Q + A.e * (U + V)) := by positivity
        change |w (r, b, c, 2) - (z (r, b, c, 2) + if (2 : Fin 3) = 0 then m c else 0)| ≤
          (1 + A.e) * |w (r, b, c, 2) - (z (r, b, c, 2) + if (2 : Fin 3) = 0 then m c else 0)| + A.e * |z (r, b, c, 2)| +
            ((1 + A.e) * Q + A.e * (U + V))
        linarith

/-- **C151** The parts to be added, from `C150_added`: if plane and column `r`, `b` of block `i` of a call lie between the first and the last
nodes, exactly and as computed, the computed parts are within the bound of C150 of the exact ones. -/
theorem C151_part (A : Fmt) (he : A.e ≤ 1 / 100) (ha : a.PosScales) (h : genInit env a = (.ok g, q)) {cfg : LFConfig} (hc : cfg.Pos)
    (h1 : 1 ≤ cfg.exp1) (h2 : 1 ≤ cfg.exp2) {lf : LowFreq} (hlf : lfInit cfg = .ok lf) {L1 L2 : ℝ}
    (hL1 : |L1 - lf.userL1| ≤ A.e * lf.userL1) (hL2 : |L2 - lf.userL2| ≤ A.e * lf.userL2) {m m' : Mat × Mat} {D M μ ε : ℝ} {k : Fin 2}
    (hm : Spec.NeighboursWithin (Spec.pick k m) lf.userN1 lf.userN2 D)
    (hM : ∀ i < lf.userN1, ∀ j < lf.userN2, |(Spec.pick k m).entry i j| ≤ M)
    (hμ : ∀ i < lf.userN1, ∀ j < lf.userN2, |(Spec.pick k m').entry i j - (Spec.pick k m).entry i j| ≤ μ)
    (hε : 0 ≤ ε) (i : ℕ) {r b : ℕ} (hr : r < g.Nx) (hb : b < g.Ny) {v : ℝ} :
    let x := (Spec.lowPoint a lf i r b).1
    let y := (Spec.lowPoint a lf i r b).2
    let δ1 := 17 * A.e * lf.userN1 * max 1 ((i + 1) * a.d1 / lf.userL1)
    let δ2 := 17 * A.e * lf.userN2 * (1 + a.d2 / lf.userL2)
    let κ := Real.exp (3 * A.e) - 1
    δ1 < 1 / 2 → δ2 < 1 / 2 →
    (0 ≤ x ∧ x ≤ lf.userL1 - lf.userL1 / lf.userN1 ∧ 0 ≤ y ∧ y ≤ lf.userL2 - lf.userL2 / lf.userN2) →
    (A.linspaceOpen 0 L1 lf.userN1 0 ≤ A.xTarget g i g.Nx r ∧ A.xTarget g i g.Nx r ≤ A.linspaceOpen 0 L1 lf.userN1 (lf.userN1 - 1) ∧
      A.linspaceOpen 0 L2 lf.userN2 0 ≤ A.yTarget g L2 b ∧ A.yTarget g L2 b ≤ A.linspaceOpen 0 L2 lf.userN2 (lf.userN2 - 1)) →
    A.InterpOf (A.lowCoords L1 lf.userN1) (A.lowCoords L2 lf.userN2) (Spec.pick k m') (A.xTarget g i g.Nx r) (A.yTarget g L2 b) ε v →
    |v - Spec.lowPart lf m k.castSucc x y| ≤
      (1 + 2 * κ) ^ 2 * (μ + ε * (M + μ)) + D * (4 * (δ1 + δ2) + 2 * κ + 2 * κ ^ 2) := by
  intro x y δ1 δ2 κ hδ1 hδ2 hin hin' hv
  obtain ⟨-, -, -, -, -, -, ⟨d1, d2, -⟩, ⟨l1, l2, -⟩, -⟩ := genInit_ok h
  obtain ⟨c, hcc⟩ := lfInit_computeC hlf
  obtain ⟨lf0, h0, -, -, -, -, e1, e2, N1, N2, -⟩ := lfInit_ok hc hcc
  rw [hlf] at h0
  obtain rfl := Except.ok.inj h0
  have hN1 : (g.Nx : ℝ) = 2 ^ a.l1 + 1 := by unfold Gen.Nx; rw [l1]; push_cast; rfl
  have hN2 : (g.Ny : ℝ) = 2 ^ a.l2 + 1 := by unfold Gen.Ny; rw [l2]; push_cast; rfl
  have p1 : 0 < lf.userL1 := by rw [e1]; exact mul_pos hc.2.1 hc.1
  have p2 : 0 < lf.userL2 := by rw [e2]; exact mul_pos hc.2.2 hc.1
  have n1 : 2 ≤ lf.userN1 := by rw [N1]; exact (Nat.pow_le_pow_right (by norm_num) h1 : 2 ^ 1 ≤ 2 ^ cfg.exp1)
  have n2 : 2 ≤ lf.userN2 := by rw [N2]; exact (Nat.pow_le_pow_right (by norm_num) h2 : 2 ^ 1 ≤ 2 ^ cfg.exp2)
  have hx : (g.xTargets i g.Nx).getD r 0 = x := by
    unfold Gen.xTargets
    simp only
    rw [tab_getD _ hr]
    simp only [x, Spec.lowPoint, hN1, d1]
    have : (2 : ℝ) ^ a.l1 + 1 ≠ 0 := by positivity
    field_simp
    ring
  have hy : (g.yTargets lf).getD b 0 = y := by
    unfold Gen.yTargets
    simp only
    rw [tab_getD _ hb]
    simp only [y, Spec.lowPoint, hN2, d2]
    ring
  have hX : (i * g.d1 + g.d1 * (g.Nx / g.Nx)) / lf.userL1 = (i + 1) * a.d1 / lf.userL1 := by
    have : (g.Nx : ℝ) ≠ 0 := by rw [hN1]; positivity
    rw [div_self this, d1]; ring
  have key := C150_added A he (g := g) (by rw [d1]; exact ha.1.1) (by rw [d2]; exact ha.1.2.1) p1 p2 n1 n2 hL1 hL2 hm hM hμ hε i g.Nx hr hb (v := v)
  simp only [hx, hy, hX, d2] at key
  have := key hδ1 hδ2 hin hin' hv
  fin_cases k
  · exact this
  · exact this

/-- **C151** A generator with any of the kernels: the bound of C145 for the block without the low-frequency part and the bound `Q` for the
parts to be added (`C151_part`) give a bound for the returned field. -/
theorem C151_generate (A : Fmt) (ha : a.PosScales) (h : genInit env a = (.ok g, q)) (hnone : a.low = none) {cfg : LFConfig} (hc : cfg.Pos)
    {lf : LowFreq} (hlf : lfInit cfg = .ok lf) {g' : Gen} {q' : ℕ} (h' : genInit env { a with low := some cfg } = (.ok g', q'))
    {cs : List (ℕ × ProfileArgs)} (hcs : ∀ r ∈ (g'.run cs).1, ∃ f, r = .ok f) {p : ProfileArgs} {n : ℕ} {f : Arr Fl}
    (hf : ((g'.run cs).2.generate p n).1 = .ok f) {m : ℕ → ℝ} {U P : ℝ}
    (hm : ∀ c < g.Nz, Spec.meanWind p (c * (a.d3 / 2 ^ a.l3)) = fin (m c) ∧ |m c| ≤ U ∧
      |A.meanWind p (A.zSpace a.d3 (2 ^ a.l3 + 1) c) - m c| ≤ P)
    {Sh : Box g.shape1.toNat g.shape2.toNat g.shape3.toNat → Matrix (Fin 3) (Fin 3) ℂ} {η κ ε ν M : ℝ}
    (hη : 0 ≤ η) (hκ : 0 ≤ κ) (hε : 0 ≤ ε) (hν : 0 ≤ ν) (hM : 0 ≤ M)
    (hS : ∀ k : Box g.shape1.toNat g.shape2.toNat g.shape3.toNat,
      let S := spectrumOf g.kernel.eval (g.rf.L.getD 0 0) (g.rf.L.getD 1 0) (g.rf.L.getD 2 0)
      ∑ i, ∑ l, ‖S k i l‖ ^ 2 ≤ M ^ 2 ∧
        ∑ i, ∑ l, ‖Sh k i l - spectrumHalf S k i l‖ ^ 2 ≤ κ ^ 2 * ∑ i, ∑ l, ‖spectrumHalf S k i l‖ ^ 2)
    {i d : ℕ} (hi : i < n) {w : g.Cell → ℝ}
    (hw : WindRounded A g ((cs.map Prod.fst).sum + i) p Sh (A.normOf a g) (A.noiseStd a.d1 a.d2 a.d3 a.l1 a.l2 a.l3) η ε ν d w)
    {Q V : ℝ} {v1 v2 : ℕ → ℕ → ℝ} (hlow : ∀ r < g.Nx, ∀ b < g.Ny,
      let low := fun k : Fin 3 => Spec.lowPart lf (Spec.lowField lf env.glob env.globPos) k
        (Spec.lowPoint a lf i r b).1 (Spec.lowPoint a lf i r b).2
      |v1 r b - low 0| ≤ Q ∧ |v2 r b - low 1| ≤ Q ∧ |low 0| ≤ V ∧ |low 1| ≤ V) :
    let J := (cs.map Prod.fst).sum + i
    ∃ u : g.Cell → ℝ, (∀ (r : Fin g.Nx) (b : Fin g.Ny) (c : Fin g.Nz), f.val? (J * g.Nx + r) b c = some fun k => fin (u (r, b, c, k))) ∧
      Spec.rms (fun x : g.Cell => A.lowSum (w x) (v1 x.1 x.2.1) (v2 x.1 x.2.1) x.2.2.2 - u x) ≤
        (1 + A.e) * ((Real.exp ((d / 2 + 4) * A.e) - 1) + (Real.exp A.e - 1) * U + Real.exp A.e * P +
          2 * ((1 + η) ^ 2 * (1 + κ) * (1 + ε) * (1 + ν) * Real.exp (19 / 2 * A.e) - 1) *
            Spec.fieldBound g M J / Real.sqrt (∑ x, Spec.sampled g J x ^ 2) + Q) + A.e * (1 + U + V) := by
  intro J
  obtain ⟨hrun, f0, hf0, hall⟩ := C151_rounded A ha h hnone hc hlf h' hcs hf
  obtain ⟨u0, u, hu0, hu, hb⟩ := hall m U (fun c hc => ⟨(hm c hc).1, (hm c hc).2.1⟩) i hi
  obtain ⟨u1, hu1, hE⟩ := C145_generate A ha h hnone hrun hf0 hm hη hκ hε hν hM hS hi hw
  have heq : u1 = u0 := by
    funext ⟨r, b, c, k⟩
    have := (hu1 r b c).symm.trans (hu0 r b c)
    exact Fl.fin.inj (congrFun (Option.some.inj this) k)
  rw [heq] at hE
  refine ⟨u, hu, hb w _ Q V v1 v2 ?_ hlow⟩
  unfold Spec.rms
  have e2 : (Fintype.card g.Cell) = g.Nx * g.Ny * g.Nz * 3 := by
    simp only [Gen.Cell, Fintype.card_prod, Fintype.card_fin]; ring
  rw [e2]
  exact hE

/-- A case: everything before the last addition exact, in double precision, with a low-frequency part of at most 3 m/s on a mean wind of at most
20 m/s.  The last addition costs at most `24 e`. -/
example (ha : a.PosScales) (h : genInit env a = (.ok g, q)) (hnone : a.low = none) {lf : LowFreq}
    (hlf : lfInit lowCase = .ok lf) {g' : Gen} {q' : ℕ}
    (h' : genInit env { a with low := some lowCase } = (.ok g', q')) {p : ProfileArgs} {n : ℕ} {f : Arr Fl}
    (hf : (g'.generate p n).1 = .ok f) {m : ℕ → ℝ}
    (hm : ∀ c < g.Nz, Spec.meanWind p (c * (a.d3 / 2 ^ a.l3)) = fin (m c) ∧ |m c| ≤ 20) (hn : 0 < n)
    (hV : ∀ r < g.Nx, ∀ b < g.Ny, ∀ k, |Spec.lowPart lf (Spec.lowField lf env.glob env.globPos) k
      (Spec.lowPoint a lf 0 r b).1 (Spec.lowPoint a lf 0 r b).2| ≤ 3) :
    let A := Fmt.binary 53 (by norm_num)
    ∃ u0 u : g.Cell → ℝ, Spec.rms (fun x : g.Cell => A.lowSum (u0 x)
      (Spec.lowPart lf (Spec.lowField lf env.glob env.globPos) 0 (Spec.lowPoint a lf 0 x.1 x.2.1).1 (Spec.lowPoint a lf 0 x.1 x.2.1).2)
      (Spec.lowPart lf (Spec.lowField lf env.glob env.globPos) 1 (Spec.lowPoint a lf 0 x.1 x.2.1).1 (Spec.lowPoint a lf 0 x.1 x.2.1).2)
      x.2.2.2 - u x) ≤ 24 * A.e := by
  intro A
  obtain ⟨-, f0, -, hall⟩ := C151_rounded A ha h hnone (by unfold LFConfig.Pos lowCase; norm_num) hlf h' (cs := []) (fun r hr => by cases hr) hf
  obtain ⟨u0, u, -, -, hb⟩ := hall m 20 hm 0 hn
  refine ⟨u0, u, ?_⟩
  have := hb u0 0 0 3 _ _ (by simp [Spec.rms]) fun r hr b hb =>
    ⟨by rw [sub_self, abs_zero], by rw [sub_self, abs_zero], hV r hr b hb 0, hV r hr b hb 1⟩
  linarith

end

end
end Verif
