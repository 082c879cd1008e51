import Verif.Lemmas.Arr
import Verif.Props.LowFreqGrid
import Verif.Props.Sampling

/-!
# The fluctuation field generator: blocks, noise stream, histories (C49 - C53)
-/

namespace Verif
open Fl

noncomputable section
open Classical

/-- Buffer and margins are positive. -/
def Gen.Good (g : Gen) : Prop := 0 < g.nb ∧ 0 < g.my ∧ 0 < g.mz

/-- Plane number `r` of the infinite noise sequence of a generator: the values of the random stream in order. -/
def Gen.noisePlane (g : Gen) (r : ℕ) : Plane ℝ :=
  tab g.shape2.toNat fun b => tab g.shape3.toNat fun c => fun i =>
    g.gauss (((r * g.shape2.toNat + b) * g.shape3.toNat + c) * 3 + i.val) * g.rf.noiseStd

/-- The planes `j * Nx, j * Nx + 1, ...` of the infinite noise sequence, as many as the noise buffer has. -/
def Gen.window (g : Gen) (j : ℕ) : Arr ℝ :=
  ⟨g.shape2.toNat, g.shape3.toNat, tab g.shape1.toNat fun a => g.noisePlane (j * g.Nx + a)⟩

/-- The central part of the field sampled from a window. -/
def Gen.block (g : Gen) (j : ℕ) : Arr ℝ :=
  Arr.ofFn g.Nx g.Ny g.Nz fun a b c i => (g.sample (g.window j)).entry (g.nb.toNat + a) (g.my.toNat + b) c i

/-- `blend_region` after block `j`. -/
def Gen.blendAfter (g : Gen) (j : ℕ) : Option (Arr ℝ) :=
  if g.bn > 0 then
    let wind := (g.sample (g.window j)).slice (some g.nb, some (-g.nb)) (some g.my, some (-g.my)) (some 0, some (-2 * g.mz))
    some { wind with planes := pySlice wind.planes (some (-g.bn)) none }
  else none

/-- The object after `j` blocks have been drawn, with accumulated field `tot`. -/
def Gen.st (g : Gen) (j : ℕ) (tot : Arr Fl) : Gen :=
  { g with
    noise := match j with
      | 0 => none
      | j + 1 => some (g.window j)
    pos := match j with
      | 0 => 0
      | j + 1 => (g.shape1.toNat + j * g.Nx) * g.shape2.toNat * g.shape3.toNat * 3
    total := tot
    blend := match j with
      | 0 => none
      | j + 1 => some (g.blendAfter j) }

theorem blendExt_nonneg (bn : ℤ) : 0 ≤ blendExt bn := by unfold blendExt; split_ifs <;> omega

theorem blendExt_eq (bn : ℤ) : max 0 (bn - 1) = blendExt bn := by unfold blendExt; split_ifs <;> omega

theorem Gen.Good.shapes {g : Gen} (h : g.Good) :
    (g.shape1.toNat : ℤ) = g.Nx + (2 * g.nb + blendExt g.bn) ∧ (g.shape2.toNat : ℤ) = g.Ny + 2 * g.my ∧
      (g.shape3.toNat : ℤ) = g.Nz + 2 * g.mz ∧ 0 < g.shape1.toNat ∧ 0 < g.shape2.toNat ∧ 0 < g.shape3.toNat ∧
      0 < g.Nx ∧ 0 < g.Ny ∧ 0 < g.Nz := by
  obtain ⟨h1, h2, h3⟩ := h
  have hb := blendExt_nonneg g.bn
  have n1 : 0 < g.Nx := by unfold Gen.Nx; positivity
  have n2 : 0 < g.Ny := by unfold Gen.Ny; positivity
  have n3 : 0 < g.Nz := by unfold Gen.Nz; positivity
  unfold Gen.shape1 Gen.shape2 Gen.shape3
  omega

theorem Gen.sample_ofFn {g : Gen} (h : g.Good) (x : Arr ℝ) :
    ∃ u, g.sample x = Arr.ofFn g.shape1.toNat g.shape2.toNat g.shape3.toNat u := by
  obtain ⟨-, -, -, p1, p2, p3, -⟩ := h.shapes
  unfold Gen.sample
  simp only
  rw [dif_pos ⟨p1, p2, p3⟩]
  exact ⟨_, rfl⟩

theorem Gen.nextNoise_st {g : Gen} (h : g.Good) (j : ℕ) (tot : Arr Fl) :
    (g.st j tot).nextNoise = (.ok (g.window j),
      { g.st j tot with pos := (g.shape1.toNat + j * g.Nx) * g.shape2.toNat * g.shape3.toNat * 3 }) := by
  obtain ⟨e1, -, -, p1, p2, p3, n1, -, -⟩ := h.shapes
  have hb := blendExt_nonneg g.bn
  have hnb := h.1
  cases j with
  | zero =>
    unfold Gen.nextNoise Gen.st
    simp only [Gen.sampleNoise, zero_mul, add_zero]
    refine Prod.ext ?_ ?_
    · simp only
      congr 1
      unfold Arr.ofFn Gen.window
      simp only [zero_mul, zero_add]
      rfl
    · simp only [zero_add]; rfl
  | succ j =>
    unfold Gen.nextNoise Gen.st
    simp only [Gen.sampleNoise]
    have hlen : g.Nx ≤ g.shape1.toNat := by omega
    have hrot : ((g.window j).planes.rotate g.Nx) =
        (tab (g.shape1.toNat - g.Nx) fun i => g.noisePlane (j * g.Nx + (g.Nx + i))) ++
          tab g.Nx fun i => g.noisePlane (j * g.Nx + i) := by
      unfold Gen.window
      simp only
      rw [tab_rotate hlen]
    have hstart : sliceIdx ((g.window j).planes.rotate g.Nx).length (2 * g.nb + max 0 (g.bn - 1)) =
        g.shape1.toNat - g.Nx := by
      rw [List.length_rotate, blendExt_eq]
      rw [show (g.window j).planes.length = g.shape1.toNat from tab_length _ _, sliceIdx_nonneg (by omega)]
      omega
    have hl : ((g.window j).planes.rotate g.Nx).length = g.shape1.toNat := by
      rw [List.length_rotate]; exact tab_length _ _
    change (if ((g.window j).planes.rotate g.Nx).length -
        sliceIdx ((g.window j).planes.rotate g.Nx).length (2 * g.nb + max 0 (g.bn - 1)) ≠ g.Nx then _ else _) = _
    rw [hstart, hl, if_neg (by omega)]
    refine Prod.ext ?_ ?_
    · simp only
      congr 1
      change Arr.mk _ _ (((g.window j).planes.rotate g.Nx).take (sliceIdx ((g.window j).planes.rotate g.Nx).length (2 * g.nb + max 0 (g.bn - 1))) ++ _) = g.window (j + 1)
      rw [hstart, hrot, List.take_left' (by simp)]
      unfold Gen.window
      simp only
      congr 1
      have e2 : g.shape1.toNat = (g.shape1.toNat - g.Nx) + g.Nx := by omega
      conv_rhs => rw [e2]
      rw [← tab_append]
      congr 1
      · refine tab_congr fun i _ => ?_
        congr 1; ring
      · unfold Arr.ofFn
        simp only
        refine tab_congr fun a _ => ?_
        unfold Gen.noisePlane
        refine tab_congr fun b _ => tab_congr fun c _ => ?_
        funext i
        change g.gauss _ * _ = _
        congr 2
        have e3 : (j + 1) * g.Nx + (g.shape1.toNat - g.Nx + a) = g.shape1.toNat + j * g.Nx + a := by
          rw [add_mul, one_mul]; omega
        rw [e3]
        change (g.shape1.toNat + j * g.Nx) * g.shape2.toNat * g.shape3.toNat * 3 +
          (((a * g.shape2.toNat + b) * g.shape3.toNat + c) * 3 + i.val) = _
        ring
    · simp only
      congr 1
      change (g.shape1.toNat + j * g.Nx) * g.shape2.toNat * g.shape3.toNat * 3 + g.Nx * g.shape2.toNat * g.shape3.toNat * 3 = _
      ring

/-- Drawing a block from the object that has drawn `j` blocks. -/
theorem Gen.generateBlock_st {g : Gen} (h : g.Good) (j : ℕ) (tot : Arr Fl) :
    (g.st j tot).generateBlock = (.ok (g.block j), g.st (j + 1) tot) := by
  obtain ⟨e1, e2, e3, p1, p2, p3, n1, n2, n3⟩ := h.shapes
  have hb := blendExt_nonneg g.bn
  obtain ⟨q1, q2, q3⟩ := h
  have h : g.Good := ⟨q1, q2, q3⟩
  unfold Gen.generateBlock
  rw [Gen.nextNoise_st h]
  simp only
  have hs : ∀ x : Gen, x.d1 = g.d1 → True := fun _ _ => trivial
  obtain ⟨u, hu⟩ := Gen.sample_ofFn h (g.window j)
  have hslice : (g.sample (g.window j)).slice (some g.nb, some (-g.nb)) (some g.my, some (-g.my)) (some 0, some (-2 * g.mz)) =
      Arr.ofFn (g.shape1.toNat - g.nb.toNat - g.nb.toNat) g.Ny g.Nz fun a b c => u (g.nb.toNat + a) (g.my.toNat + b) c := by
    rw [hu, show (-2 * g.mz) = -(2 * g.mz) by ring,
      ofFn_slice u (by omega) (by omega) (by omega) (by omega) (by omega) (by omega) (by omega) (by omega) (by omega)]
    congr 1
    · omega
    · omega
    · funext a b c; congr 1; omega
  refine Prod.ext ?_ ?_
  · change Except.ok (if g.bn > 1 then Arr.mk _ _ (pySlice (Arr.planes (Arr.slice (g.sample (g.window j)) _ _ _)) none
      (some (-(g.bn - 1)))) else Arr.slice (g.sample (g.window j)) _ _ _) = Except.ok (g.block j)
    congr 1
    change (if g.bn > 1 then Arr.mk
      ((g.sample (g.window j)).slice (some g.nb, some (-g.nb)) (some g.my, some (-g.my)) (some 0, some (-2 * g.mz))).n2
      ((g.sample (g.window j)).slice (some g.nb, some (-g.nb)) (some g.my, some (-g.my)) (some 0, some (-2 * g.mz))).n3
      (pySlice ((g.sample (g.window j)).slice (some g.nb, some (-g.nb)) (some g.my, some (-g.my))
        (some 0, some (-2 * g.mz))).planes none (some (-(g.bn - 1)))) else
      (g.sample (g.window j)).slice (some g.nb, some (-g.nb)) (some g.my, some (-g.my)) (some 0, some (-2 * g.mz))) = _
    rw [hslice]
    have hblock : g.block j = Arr.ofFn g.Nx g.Ny g.Nz fun a b c => u (g.nb.toNat + a) (g.my.toNat + b) c := by
      unfold Gen.block
      rw [hu]
      refine ofFn_congr fun a ha b hb c hc => ?_
      funext i
      rw [ofFn_entry _ (by omega) (by omega) (by omega)]
    rw [hblock]
    by_cases hbn : g.bn > 1
    · rw [if_pos hbn]
      unfold Arr.ofFn
      simp only
      congr 1
      have hext : blendExt g.bn = g.bn - 1 := by unfold blendExt; rw [if_pos (by omega)]
      rw [pySlice_init _ (by omega) (by omega)]
      congr 1
      omega
    · rw [if_neg hbn]
      have hext : blendExt g.bn = 0 := by unfold blendExt; split_ifs <;> omega
      congr 1
      omega
  · rfl

/-! ### One pass of the block loop -/

/-- The block appended by the loop, for local block number `i` of the call and overall block number `j`. -/
def Gen.outBlock (g : Gen) (p : ProfileArgs) (i j : ℕ) : Except PyErr (Arr Fl) :=
  match g.normalizeBlock (g.block j) p with
  | .error e => .error e
  | .ok b => g.addLow i b

/-- Shape of an array. -/
def Arr.Shape {α : Type} (x : Arr α) (n1 n2 n3 : ℕ) : Prop :=
  x.n2 = n2 ∧ x.n3 = n3 ∧ x.planes.length = n1 ∧ ∀ p ∈ x.planes, p.length = n2 ∧ ∀ r ∈ p, r.length = n3

theorem ofFn_shape {α : Type} (n1 n2 n3 : ℕ) (f : ℕ → ℕ → ℕ → Fin 3 → α) : (Arr.ofFn n1 n2 n3 f).Shape n1 n2 n3 := by
  refine ⟨rfl, rfl, tab_length _ _, ?_⟩
  intro p hp
  unfold Arr.ofFn tab at hp
  simp only [List.mem_map] at hp
  obtain ⟨a, -, rfl⟩ := hp
  refine ⟨by simp, ?_⟩
  intro r hr
  simp only [List.mem_map] at hr
  obtain ⟨b, -, rfl⟩ := hr
  simp

/-- Standard deviation used by the normalisation of block `j`. -/
def Arr.sd (b : Arr ℝ) : ℝ := Real.sqrt ((b.flat.map fun x => x ^ 2).sum / b.flat.length)

/-- The mean wind at grid level `c`. -/
def Gen.profileAt (g : Gen) (p : ProfileArgs) (c : ℕ) : Fl :=
  if p.ptype = "LOG" then logLaw ((c : ℝ) * (g.d3 / (g.Nz - 1 : ℕ))) p.z0 p.zref p.uref
  else powerLaw ((c : ℝ) * (g.d3 / (g.Nz - 1 : ℕ))) p.zref p.uref (p.plexp.getD 0)

/-- The arguments accepted by the validation. -/
def ProfileArgs.Valid (p : ProfileArgs) : Prop :=
  (p.ptype = "LOG" ∨ (p.ptype = "PL" ∧ ∃ a, p.plexp = some a)) ∧ 0 < p.zref ∧ 0 < p.uref ∧ 0 < p.z0

theorem normalizeBlock_ofFn (g : Gen) (n1 n2 : ℕ) (f : ℕ → ℕ → ℕ → Fin 3 → ℝ) (p : ProfileArgs) :
    g.normalizeBlock (Arr.ofFn n1 n2 g.Nz f) p =
      if (Arr.ofFn n1 n2 g.Nz f).any ∧ p.Valid then
        .ok (Arr.ofFn n1 n2 g.Nz fun a b c i => fin (f a b c i / (Arr.ofFn n1 n2 g.Nz f).sd) +
          if i = 0 then g.profileAt p c else fin 0)
      else .error .valueError := by
  unfold Gen.normalizeBlock
  by_cases h1 : (Arr.ofFn n1 n2 g.Nz f).any
  swap
  · rw [if_pos h1, if_neg (fun h => h1 h.1)]
  rw [if_neg (not_not.2 h1)]
  by_cases h2 : p.ptype ∈ ["LOG", "PL"]
  swap
  · rw [if_pos h2, if_neg]
    rintro ⟨-, h, -⟩
    rcases h with h | h
    · exact h2 (by simp [h])
    · exact h2 (by simp [h.1])
  rw [if_neg (not_not.2 h2)]
  by_cases h3 : p.zref ≤ 0 ∨ p.uref ≤ 0 ∨ p.z0 ≤ 0
  · rw [if_pos h3, if_neg]
    rintro ⟨-, -, q1, q2, q3⟩
    rcases h3 with h | h | h <;> linarith
  rw [if_neg h3]
  by_cases h4 : p.ptype = "PL" ∧ p.plexp = none
  · rw [if_pos h4, if_neg]
    rintro ⟨-, h | h, -⟩
    · rw [h4.1] at h; exact absurd h (by decide)
    · obtain ⟨-, a, ha⟩ := h
      rw [h4.2] at ha; cases ha
  rw [if_neg h4]
  have hv : p.Valid := by
    simp only [not_or, not_le] at h3
    refine ⟨?_, h3⟩
    simp only [List.mem_cons, List.not_mem_nil, or_false] at h2
    rcases h2 with h | h
    · exact Or.inl h
    · refine Or.inr ⟨h, ?_⟩
      cases hp : p.plexp with
      | none => exact absurd ⟨h, hp⟩ h4
      | some a => exact ⟨a, rfl⟩
  have hn3 : (Arr.ofFn n1 n2 g.Nz f).n3 = g.Nz := rfl
  simp only
  rw [if_neg (not_not.2 hn3), if_pos ⟨h1, hv⟩]
  congr 1
  conv_lhs => unfold Arr.ofFn
  conv_rhs => unfold Arr.ofFn
  simp only
  congr 1
  rw [tab_map]
  refine tab_congr fun a _ => ?_
  rw [tab_map]
  refine tab_congr fun b _ => ?_
  rw [Gen.zSpace, tab_map, zipWith_tab]
  rfl

theorem mat_eq_tab {m : Mat} {n1 n2 : ℕ} (h : m.HasShape n1 n2) : m = tab n1 fun a => tab n2 fun b => m.entry a b := by
  refine tab_ext h.1 fun a ha => ?_
  have ha' : a < m.length := by rw [h.1]; exact ha
  rw [List.getElem?_eq_getElem ha']
  congr 1
  refine tab_ext (h.2 _ (List.getElem_mem ha')) fun b hb => ?_
  have hb' : b < (m[a]).length := by rw [h.2 _ (List.getElem_mem ha')]; exact hb
  rw [List.getElem?_eq_getElem hb']
  congr 1
  unfold Mat.entry
  rw [List.getD_eq_getElem?_getD (l := m), List.getElem?_eq_getElem ha', Option.getD_some, List.getD_eq_getElem?_getD,
    List.getElem?_eq_getElem hb', Option.getD_some]

/-- The low-frequency contribution to plane `a`, column `b` of local block `i`. -/
def Gen.lowAt (g : Gen) (i a b : ℕ) : ℝ × ℝ :=
  match g.low with
  | none => (0, 0)
  | some lf =>
    match lf.u with
    | none => (0, 0)
    | some (u1, u2) =>
      let x := ((i : ℝ) + (a : ℝ) / g.Nx) * g.d1
      let y := lf.userL2 / 2 - g.d2 / 2 + (b : ℝ) * (g.d2 / g.Ny)
      (interpAt (lfCoords lf.userL1 lf.userN1) (lfCoords lf.userL2 lf.userN2) u1 x y,
        interpAt (lfCoords lf.userL1 lf.userN1) (lfCoords lf.userL2 lf.userN2) u2 x y)

/-- The attached low-frequency generator, if any, holds a field. -/
def Gen.LowReady (g : Gen) : Prop := ∀ lf, g.low = some lf → ∃ u, lf.u = some u

theorem addLow_none {g : Gen} (h : g.low = none) (i : ℕ) (b : Arr Fl) : g.addLow i b = .ok b := by
  unfold Gen.addLow; rw [h]

theorem addLow_ofFn {g : Gen} {lf : LowFreq} (h : g.low = some lf) {u : Mat × Mat} (hu : lf.u = some u) (i : ℕ) (n3 : ℕ)
    (f : ℕ → ℕ → ℕ → Fin 3 → Fl) :
    g.addLow i (Arr.ofFn g.Nx g.Ny n3 f) = .ok (Arr.ofFn g.Nx g.Ny n3 fun a b c =>
      ![f a b c 0 + fin (g.lowAt i a b).1, f a b c 1 + fin (g.lowAt i a b).2, f a b c 2]) := by
  obtain ⟨u1, u2⟩ := u
  have hN : (g.Nx : ℝ) ≠ 0 := by unfold Gen.Nx; positivity
  have hNy : (g.Ny : ℝ) ≠ 0 := by unfold Gen.Ny; positivity
  have hx : g.xTargets i (Arr.ofFn g.Nx g.Ny n3 f).planes.length = tab g.Nx fun a : ℕ => ((i : ℝ) + (a : ℝ) / g.Nx) * g.d1 := by
    rw [(ofFn_shape g.Nx g.Ny n3 f).2.2.1]
    unfold Gen.xTargets
    simp only
    refine tab_congr fun a _ => ?_
    field_simp
    ring
  have hy : g.yTargets lf = tab g.Ny fun b : ℕ => lf.userL2 / 2 - g.d2 / 2 + (b : ℝ) * (g.d2 / g.Ny) := by
    unfold Gen.yTargets
    simp only
    refine tab_congr fun b _ => ?_
    congr 2
    ring
  obtain ⟨a1, a2, hab, s1, s2, he⟩ := (C72_slice lf (g.xTargets i (Arr.ofFn g.Nx g.Ny n3 f).planes.length) (g.yTargets lf)).2 u1 u2 hu
  unfold Gen.addLow
  rw [h]
  simp only
  rw [hab]
  simp only
  rw [if_neg (by simp [Arr.ofFn])]
  congr 1
  rw [hx, hy] at s1 s2
  simp only [tab_length] at s1 s2
  have hent : ∀ a < g.Nx, ∀ b < g.Ny, a1.entry a b = (g.lowAt i a b).1 ∧ a2.entry a b = (g.lowAt i a b).2 := by
    intro a ha b hb
    have ha' : a < (g.xTargets i (Arr.ofFn g.Nx g.Ny n3 f).planes.length).length := by rw [hx, tab_length]; exact ha
    have hb' : b < (g.yTargets lf).length := by rw [hy, tab_length]; exact hb
    obtain ⟨q1, q2⟩ := he a ha' b hb'
    have ex : (g.xTargets i (Arr.ofFn g.Nx g.Ny n3 f).planes.length)[a] = ((i : ℝ) + (a : ℝ) / g.Nx) * g.d1 := by
      have : (g.xTargets i (Arr.ofFn g.Nx g.Ny n3 f).planes.length)[a]? = some (((i : ℝ) + (a : ℝ) / g.Nx) * g.d1) := by
        rw [hx, tab_getElem?, if_pos ha]
      rw [List.getElem?_eq_getElem ha'] at this
      exact Option.some.inj this
    have ey : (g.yTargets lf)[b] = lf.userL2 / 2 - g.d2 / 2 + (b : ℝ) * (g.d2 / g.Ny) := by
      have : (g.yTargets lf)[b]? = some (lf.userL2 / 2 - g.d2 / 2 + (b : ℝ) * (g.d2 / g.Ny)) := by
        rw [hy, tab_getElem?, if_pos hb]
      rw [List.getElem?_eq_getElem hb'] at this
      exact Option.some.inj this
    rw [ex, ey] at q1 q2
    unfold Gen.lowAt
    rw [h]
    simp only
    rw [hu]
    exact ⟨q1, q2⟩
  rw [mat_eq_tab s1, mat_eq_tab s2]
  unfold Arr.ofFn
  simp only
  congr 1
  rw [zip_tab, zipWith_tab]
  refine tab_congr fun a ha => ?_
  simp only
  rw [zip_tab, zipWith_tab]
  refine tab_congr fun b hb => ?_
  rw [tab_map]
  refine tab_congr fun c _ => ?_
  rw [(hent a ha b hb).1, (hent a ha b hb).2]

/-- The value at a point of the appended block. -/
def Gen.outAt (g : Gen) (p : ProfileArgs) (i j a b c : ℕ) (k : Fin 3) : Fl :=
  let v := fin ((g.block j).entry a b c k / (g.block j).sd)
  match k with
  | 0 => v + g.profileAt p c + (if g.low = none then fin 0 else fin (g.lowAt i a b).1)
  | 1 => v + (if g.low = none then fin 0 else fin (g.lowAt i a b).2)
  | 2 => v

theorem add_fin_zero (x : Fl) : x + fin 0 = x := by cases x <;> simp

/-- The appended block: an error exactly when validation fails, otherwise the values given by `outAt`. -/
theorem outBlock_eq {g : Gen} (hl : g.LowReady) (p : ProfileArgs) (i j : ℕ) :
    g.outBlock p i j = if (g.block j).any ∧ p.Valid then .ok (Arr.ofFn g.Nx g.Ny g.Nz (g.outAt p i j))
      else .error .valueError := by
  unfold Gen.outBlock
  have hb : g.block j = Arr.ofFn g.Nx g.Ny g.Nz fun a b c i => (g.block j).entry a b c i := by
    conv_lhs => unfold Gen.block
    refine ofFn_congr fun a ha b hb c hc => ?_
    funext i
    unfold Gen.block
    rw [ofFn_entry _ ha hb hc]
  have hn : g.normalizeBlock (g.block j) p = if (g.block j).any ∧ p.Valid then
        .ok (Arr.ofFn g.Nx g.Ny g.Nz fun a b c i => fin ((g.block j).entry a b c i / (g.block j).sd) +
          if i = 0 then g.profileAt p c else fin 0)
      else .error .valueError := by
    conv_lhs => rw [hb]
    rw [normalizeBlock_ofFn, ← hb]
  rw [hn]
  by_cases h : (g.block j).any ∧ p.Valid
  · rw [if_pos h, if_pos h]
    simp only
    cases hlow : g.low with
    | none =>
      rw [addLow_none hlow]
      congr 1
      refine ofFn_congr fun a _ b _ c _ => ?_
      funext k
      unfold Gen.outAt
      rw [hlow]
      fin_cases k <;> simp [add_fin_zero]
    | some lf =>
      obtain ⟨u, hu⟩ := hl lf hlow
      rw [addLow_ofFn hlow hu]
      congr 1
      refine ofFn_congr fun a _ b _ c _ => ?_
      funext k
      unfold Gen.outAt
      rw [hlow]
      fin_cases k <;> simp [add_fin_zero]
  · rw [if_neg h, if_neg h]

theorem outBlock_st (g : Gen) (p : ProfileArgs) (i j k : ℕ) (tot : Arr Fl) :
    (match (g.st k tot).normalizeBlock (g.block j) p with
      | .error e => Except.error e
      | .ok b => (g.st k tot).addLow i b) = g.outBlock p i j := rfl

/-- One pass of the loop. -/
theorem blockStep_st {g : Gen} (h : g.Good) (hl : g.LowReady) (p : ProfileArgs) (i j : ℕ) {tot : Arr Fl}
    (ht : tot.n2 = g.Ny ∧ tot.n3 = g.Nz) :
    (g.st j tot).blockStep p i =
      if (g.block j).any ∧ p.Valid then
        (.ok (), g.st (j + 1) ⟨g.Ny, g.Nz, tot.planes ++ (Arr.ofFn g.Nx g.Ny g.Nz (g.outAt p i j)).planes⟩)
      else (.error .valueError, g.st (j + 1) tot) := by
  have ho := outBlock_eq hl p i j
  unfold Gen.blockStep
  rw [Gen.generateBlock_st h]
  simp only
  rw [← outBlock_st g p i j (j + 1) tot] at ho
  by_cases hc : (g.block j).any ∧ p.Valid
  · rw [if_pos hc] at ho ⊢
    cases hn : (g.st (j + 1) tot).normalizeBlock (g.block j) p with
    | error e => rw [hn] at ho; cases ho
    | ok b =>
      rw [hn] at ho
      simp only at ho ⊢
      rw [ho]
      simp only
      rw [if_neg]
      · congr 1
        obtain ⟨t1, t2⟩ := ht
        rw [← t1, ← t2]
        rfl
      · change ¬ (tot.n2 ≠ g.Ny ∨ tot.n3 ≠ g.Nz)
        simp only [ne_eq, not_or, not_not]
        exact ht
  · rw [if_neg hc] at ho ⊢
    cases hn : (g.st (j + 1) tot).normalizeBlock (g.block j) p with
    | error e =>
      rw [hn] at ho
      simp only at ho ⊢
      rw [Except.error.inj ho]
    | ok b =>
      rw [hn] at ho
      simp only at ho ⊢
      rw [ho]

/-- Planes appended by `k` passes starting with local number `i` and overall number `j`. -/
def Gen.outs (g : Gen) (p : ProfileArgs) (i j k : ℕ) : List (Plane Fl) :=
  (List.range k).flatMap fun t => (Arr.ofFn g.Nx g.Ny g.Nz (g.outAt p (i + t) (j + t))).planes

theorem outs_zero (g : Gen) (p : ProfileArgs) (i j : ℕ) : g.outs p i j 0 = [] := rfl

theorem outs_succ (g : Gen) (p : ProfileArgs) (i j k : ℕ) :
    g.outs p i j (k + 1) = (Arr.ofFn g.Nx g.Ny g.Nz (g.outAt p i j)).planes ++ g.outs p (i + 1) (j + 1) k := by
  unfold Gen.outs
  rw [List.range_succ_eq_map, List.flatMap_cons, List.flatMap_map, add_zero, add_zero]
  have e : (fun t : ℕ => (Arr.ofFn g.Nx g.Ny g.Nz (g.outAt p (i + t.succ) (j + t.succ))).planes) =
      fun t => (Arr.ofFn g.Nx g.Ny g.Nz (g.outAt p (i + 1 + t) (j + 1 + t))).planes := by
    funext t
    rw [show i + t.succ = i + 1 + t by omega, show j + t.succ = j + 1 + t by omega]
  rw [e]

/-- The field after `k` further blocks. -/
def Gen.ext (g : Gen) (tot : Arr Fl) (l : List (Plane Fl)) : Arr Fl := ⟨g.Ny, g.Nz, tot.planes ++ l⟩

theorem ext_nil (g : Gen) {tot : Arr Fl} (ht : tot.n2 = g.Ny ∧ tot.n3 = g.Nz) : g.ext tot [] = tot := by
  obtain ⟨n2, n3, pl⟩ := tot
  obtain ⟨rfl, rfl⟩ := ht
  simp [Gen.ext]

/-- Outcome of the block loop: either all blocks are appended or the first invalid one raises. -/
theorem loop_st {g : Gen} (h : g.Good) (hl : g.LowReady) (p : ProfileArgs) (n : ℕ) :
    ∀ (i j : ℕ) (tot : Arr Fl), tot.n2 = g.Ny ∧ tot.n3 = g.Nz →
      ((∀ t < n, (g.block (j + t)).any ∧ p.Valid) ∧
        (g.st j tot).loop p n i = (.ok (), g.st (j + n) (g.ext tot (g.outs p i j n)))) ∨
      (∃ k < n, (∀ t < k, (g.block (j + t)).any ∧ p.Valid) ∧ ¬ ((g.block (j + k)).any ∧ p.Valid) ∧
        (g.st j tot).loop p n i = (.error .valueError, g.st (j + k + 1) (g.ext tot (g.outs p i j k)))) := by
  induction n with
  | zero =>
    intro i j tot ht
    refine Or.inl ⟨fun t h => absurd h (Nat.not_lt_zero _), ?_⟩
    rw [outs_zero, ext_nil g ht]
    rfl
  | succ n ih =>
    intro i j tot ht
    have hs := blockStep_st h hl p i j ht
    by_cases hc : (g.block j).any ∧ p.Valid
    · rw [if_pos hc] at hs
      have hstep : (g.st j tot).loop p (n + 1) i =
          (g.st (j + 1) (g.ext tot (Arr.ofFn g.Nx g.Ny g.Nz (g.outAt p i j)).planes)).loop p n (i + 1) := by
        conv_lhs => unfold Gen.loop
        rw [hs]
        rfl
      rw [hstep]
      have hext : ∀ k, g.ext (g.ext tot (Arr.ofFn g.Nx g.Ny g.Nz (g.outAt p i j)).planes) (g.outs p (i + 1) (j + 1) k) =
          g.ext tot (g.outs p i j (k + 1)) := by
        intro k
        rw [outs_succ]
        simp [Gen.ext]
      rcases ih (i + 1) (j + 1) (g.ext tot (Arr.ofFn g.Nx g.Ny g.Nz (g.outAt p i j)).planes) ⟨rfl, rfl⟩ with
        ⟨h1, h2⟩ | ⟨k, hk, h1, h2, h3⟩
      · refine Or.inl ⟨?_, ?_⟩
        · intro t ht
          cases t with
          | zero => exact hc
          | succ t =>
            rw [show j + (t + 1) = j + 1 + t by omega]
            exact h1 t (by omega)
        · rw [h2, hext, show j + 1 + n = j + (n + 1) by omega]
      · refine Or.inr ⟨k + 1, by omega, ?_, ?_, ?_⟩
        · intro t ht
          cases t with
          | zero => exact hc
          | succ t =>
            rw [show j + (t + 1) = j + 1 + t by omega]
            exact h1 t (by omega)
        · rw [show j + (k + 1) = j + 1 + k by omega]; exact h2
        · rw [h3, hext, show j + 1 + k + 1 = j + (k + 1) + 1 by omega]
    · rw [if_neg hc] at hs
      refine Or.inr ⟨0, by omega, fun t h => absurd h (Nat.not_lt_zero _), hc, ?_⟩
      conv_lhs => unfold Gen.loop
      rw [hs, outs_zero, ext_nil g ht]
      try rfl

theorem generate_st {g : Gen} (h : g.Good) (hl : g.LowReady) (p : ProfileArgs) (n : ℕ) (j : ℕ) {tot : Arr Fl}
    (ht : tot.n2 = g.Ny ∧ tot.n3 = g.Nz) :
      ((∀ t < n, (g.block (j + t)).any ∧ p.Valid) ∧
        (g.st j tot).generate p n = (.ok (g.ext tot (g.outs p 0 j n)), g.st (j + n) (g.ext tot (g.outs p 0 j n)))) ∨
      (∃ k < n, (∀ t < k, (g.block (j + t)).any ∧ p.Valid) ∧ ¬ ((g.block (j + k)).any ∧ p.Valid) ∧
        (g.st j tot).generate p n = (.error .valueError, g.st (j + k + 1) (g.ext tot (g.outs p 0 j k)))) := by
  unfold Gen.generate
  rcases loop_st h hl p n 0 j tot ht with ⟨h1, h2⟩ | ⟨k, hk, h1, h2, h3⟩
  · refine Or.inl ⟨h1, ?_⟩
    rw [h2]
    rfl
  · refine Or.inr ⟨k, hk, h1, h2, ?_⟩
    rw [h3]

/-! ### Histories of calls -/

/-- A sequence of `generate` calls: number of blocks and profile arguments.  Exceptions are caught by the caller and the
object is used further.  Returns the outcomes of the calls and the object. -/
def Gen.run : List (ℕ × ProfileArgs) → Gen → List (Except PyErr (Arr Fl)) × Gen
  | [], g => ([], g)
  | (n, p) :: cs, g =>
    let r := g.generate p n
    let s := Gen.run cs r.2
    (r.1 :: s.1, s.2)

/-- A newly built object. -/
def Gen.Fresh (g : Gen) : Prop := g.noise = none ∧ g.pos = 0 ∧ g.blend = none ∧ g.total = ⟨g.Ny, g.Nz, []⟩

theorem Gen.Fresh.st {g : Gen} (h : g.Fresh) : g.st 0 ⟨g.Ny, g.Nz, []⟩ = g := by
  obtain ⟨h1, h2, h3, h4⟩ := h
  unfold Gen.st
  cases g
  simp only at h1 h2 h3 h4
  subst h1 h2 h3
  simp only
  rw [h4]
  rfl

theorem outs_shape (g : Gen) (p : ProfileArgs) (i j k : ℕ) :
    (g.outs p i j k).length = k * g.Nx ∧ ∀ q ∈ g.outs p i j k, q.length = g.Ny ∧ ∀ r ∈ q, r.length = g.Nz := by
  induction k generalizing i j with
  | zero => simp [outs_zero]
  | succ k ih =>
    obtain ⟨-, -, h1, h2⟩ := ofFn_shape g.Nx g.Ny g.Nz (g.outAt p i j)
    rw [outs_succ]
    refine ⟨?_, ?_⟩
    · rw [List.length_append, h1, (ih (i + 1) (j + 1)).1]; ring
    · intro q hq
      rcases List.mem_append.1 hq with hq | hq
      · exact h2 q hq
      · exact (ih (i + 1) (j + 1)).2 q hq

/-- Invariant of every history: the object is in one of the described states, the field consists of whole blocks; when all
calls have succeeded their number is the number requested. -/
theorem run_st {g : Gen} (h : g.Good) (hl : g.LowReady) (cs : List (ℕ × ProfileArgs)) :
    ∀ (j k : ℕ) (tot : Arr Fl), tot.Shape (k * g.Nx) g.Ny g.Nz →
      ∃ j' k' tot', (Gen.run cs (g.st j tot)).2 = g.st j' tot' ∧ tot'.Shape (k' * g.Nx) g.Ny g.Nz ∧
        k ≤ k' ∧ k' ≤ k + (cs.map Prod.fst).sum ∧ j ≤ j' ∧
        ((∀ r ∈ (Gen.run cs (g.st j tot)).1, ∃ f, r = .ok f) → k' = k + (cs.map Prod.fst).sum ∧
          j' = j + (cs.map Prod.fst).sum) := by
  induction cs with
  | nil =>
    intro j k tot ht
    exact ⟨j, k, tot, rfl, ht, le_refl _, by simp, le_refl _, fun _ => by simp⟩
  | cons c cs ih =>
    obtain ⟨n, p⟩ := c
    intro j k tot ht
    have hsh : ∀ m i j, (g.ext tot (g.outs p i j m)).Shape ((k + m) * g.Nx) g.Ny g.Nz := by
      intro m i j
      obtain ⟨o1, o2⟩ := outs_shape g p i j m
      refine ⟨rfl, rfl, ?_, ?_⟩
      · simp only [Gen.ext, List.length_append, ht.2.2.1, o1]; ring
      · intro q hq
        rcases List.mem_append.1 hq with hq | hq
        · exact ht.2.2.2 q hq
        · exact o2 q hq
    rcases generate_st h hl p n j ⟨ht.1, ht.2.1⟩ with ⟨-, h2⟩ | ⟨m, hm, -, -, h2⟩
    · obtain ⟨j', k', tot', e, s, b1, b2, b3, b4⟩ := ih (j + n) (k + n) _ (hsh n 0 j)
      refine ⟨j', k', tot', ?_, s, by omega, ?_, by omega, ?_⟩
      · unfold Gen.run; rw [h2]; exact e
      · simp only [List.map_cons, List.sum_cons]; omega
      · intro hr
        have := b4 (fun r hr' => hr r (by unfold Gen.run; rw [h2]; exact List.mem_cons_of_mem _ hr'))
        simp only [List.map_cons, List.sum_cons]
        omega
    · obtain ⟨j', k', tot', e, s, b1, b2, b3, b4⟩ := ih (j + m + 1) (k + m) _ (hsh m 0 j)
      refine ⟨j', k', tot', ?_, s, by omega, ?_, by omega, ?_⟩
      · unfold Gen.run; rw [h2]; exact e
      · simp only [List.map_cons, List.sum_cons]; omega
      · intro hr
        obtain ⟨f, hf⟩ := hr (.error .valueError) (by unfold Gen.run; rw [h2]; exact List.mem_cons_self)
        cases hf

end
end Verif
