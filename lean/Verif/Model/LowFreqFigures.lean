import Verif.Model.LowFreqStudy
import Verif.Num.Fl

/-!
# Model of `recreate_fig2` and of the variance studies in `fluctuation_generation/low_frequency/large_plot.py`

Drawing and printing are left out except for the values shown.  All fields of one call come from numpy's global generator,
whose stream is `g`; `pos` is the number of values consumed so far.
-/

namespace Verif
open Fl

noncomputable section
open Classical

/-- `np.mean` of a list: NaN (and a warning) for the empty list. -/
def npMean (l : List ℝ) : Fl := if l = [] then nan else fin (l.sum / l.length)

/-- Variances of one realization: of the returned fields and of the fields before cropping. -/
structure VarRow where
  var1 : ℝ
  var2 : ℝ
  full1 : ℝ
  full2 : ℝ

/-- The loops over the realizations, L534-537, L693-702 and L768-771: `np.var` of every realization, and the position of the
stream afterwards. -/
def varianceLoop (lf : LowFreq) (g : ℕ → ℝ) : ℕ → ℕ → Except PyErr (List VarRow × ℕ)
  | 0, pos => pure ([], pos)
  | n + 1, pos =>
    match lf.generate g pos with
    | (.error e, _) => throw e
    | (.ok (u1, u2), (lf', pos')) =>
      match lf'.full with
      | none => throw PyErr.typeError
      | some (f1, f2) =>
        match varianceLoop lf' g n pos' with
        | .error e => throw e
        | .ok (rows, q) => pure (⟨u1.var, u2.var, f1.var, f2.var⟩ :: rows, q)

/-- Entry of the dictionary returned by `anisotropy_study`, L782. -/
structure AnisoRow where
  u1 : Fl
  u2 : Fl
  total : Fl

/-- `d[k] = v` for a dictionary as list of pairs in order of insertion. -/
def dictSet {α : Type} (d : List (ℝ × α)) (k : ℝ) (v : α) : List (ℝ × α) :=
  if d.any (fun p => decide (p.1 = k)) then d.map fun p => if p.1 = k then (k, v) else p else d ++ [(k, v)]

/-- `d.get(k)`. -/
def dictGet {α : Type} (d : List (ℝ × α)) (k : ℝ) : Option α := (d.find? fun p => decide (p.1 = k)).map Prod.snd

/-- `local_config` of one angle, L733-734 and L760-761. -/
def anisoConfig (cfg : LFConfig) (psiDeg : ℝ) : LFConfig := { cfg with psi := psiDeg * (Real.pi / 180) }

/-- First loop of `anisotropy_study`, L732-740: one field per angle; only the position of the stream is kept. -/
def anisoFields (cfg : LFConfig) (g : ℕ → ℝ) : List ℝ → ℕ → Except PyErr ℕ
  | [], pos => pure pos
  | psi :: rest, pos =>
    match lfInit (anisoConfig cfg psi) with
    | .error e => throw e
    | .ok lf =>
      match lf.generate g pos with
      | (.error e, _) => throw e
      | (.ok _, (_, pos')) => anisoFields cfg g rest pos'

/-- Second loop of `anisotropy_study`, L758-811; with a single angle `axs[i]` is an `Axes` object, so that `row_axs[0]`
raises. -/
def anisoLoop (cfg : LFConfig) (R : ℕ) (plot single : Bool) (g : ℕ → ℝ) :
    List ℝ → ℕ → List (ℝ × AnisoRow) → Except PyErr (List (ℝ × AnisoRow))
  | [], _, d => pure d
  | psi :: rest, pos, d =>
    match lfInit (anisoConfig cfg psi) with
    | .error e => throw e
    | .ok lf =>
      match varianceLoop lf g R pos with
      | .error e => throw e
      | .ok (rows, pos') =>
        let a1 := npMean (rows.map VarRow.var1)
        let a2 := npMean (rows.map VarRow.var2)
        let d := dictSet d psi ⟨a1, a2, a1 + a2⟩
        if plot && single then throw PyErr.typeError
        else anisoLoop cfg R plot single g rest pos' d

/-- `anisotropy_study`, L716-819: `np.min` of an empty array raises for an empty list of angles (L743). -/
def anisotropyStudy (cfg : LFConfig) (psis : List ℝ) (R : ℕ) (plot : Bool) (g : ℕ → ℝ) (pos : ℕ) :
    Except PyErr (List (ℝ × AnisoRow)) :=
  match anisoFields cfg g psis pos with
  | .error e => throw e
  | .ok pos' =>
    if psis = [] then throw PyErr.valueError
    else anisoLoop cfg R plot (decide (psis.length = 1)) g psis pos' []

/-- The six averages printed for one domain by `rectangular_domain_study`, L704-709. -/
structure RectRow where
  u1 : Fl
  u2 : Fl
  total : Fl
  full1 : Fl
  full2 : Fl
  fullTotal : Fl

/-- The domains of `rectangular_domain_study`, L645-669: the factors and the exponents. -/
def rectDomains : List ((ℝ × ℝ) × (ℕ × ℕ)) :=
  [((16, 8), (11, 10)), ((16, 4), (11, 9)), ((8, 4), (11, 10)), ((8, 2), (12, 10)), ((4, 2), (11, 10)),
   ((2, 4), (10, 11)), ((2, 8), (10, 12)), ((4, 8), (10, 11)), ((4, 16), (10, 12)), ((8, 16), (10, 11))]

/-- Averages of the variances of a list of realizations. -/
def rectRow (rows : List VarRow) : RectRow :=
  ⟨npMean (rows.map VarRow.var1), npMean (rows.map VarRow.var2), npMean (rows.map fun r => r.var1 + r.var2),
   npMean (rows.map VarRow.full1), npMean (rows.map VarRow.full2), npMean (rows.map fun r => r.full1 + r.full2)⟩

/-- The loop of `rectangular_domain_study`, L673-713, and of `length_AND_grid_size_study`, L513-545 (which shows the first
two averages and their sum), over any list of domains: the printed averages of every domain. -/
def rectLoop (cfg : LFConfig) (R : ℕ) (g : ℕ → ℝ) : List ((ℝ × ℝ) × (ℕ × ℕ)) → ℕ → Except PyErr (List RectRow)
  | [], _ => pure []
  | ((l1, l2), (e1, e2)) :: rest, pos =>
    match lfInit { cfg with L1factor := l1, L2factor := l2, exp1 := e1, exp2 := e2 } with
    | .error e => throw e
    | .ok lf =>
      match varianceLoop lf g R pos with
      | .error e => throw e
      | .ok (rows, pos') =>
        match rectLoop cfg R g rest pos' with
        | .error e => throw e
        | .ok out => pure (rectRow rows :: out)

/-- `rectangular_domain_study`, L643-713. -/
def rectangularStudy (cfg : LFConfig) (R : ℕ) (g : ℕ → ℝ) (pos : ℕ) : Except PyErr (List RectRow) :=
  rectLoop cfg R g rectDomains pos

/-- The domains of `length_AND_grid_size_study`, L496-497 and L513-514: all combinations, the factor varying faster. -/
def gridDomains : List ((ℝ × ℝ) × (ℕ × ℕ)) :=
  [7, 8, 9, 10, 11].flatMap fun e : ℕ => [2, 4, 6, 8, 10, 12, 14, 16, 18, 20].map fun f : ℝ => ((f, f), (e, e))

/-- `length_AND_grid_size_study`, L492-640. -/
def lengthGridStudy (cfg : LFConfig) (R : ℕ) (g : ℕ → ℝ) (pos : ℕ) : Except PyErr (List RectRow) :=
  rectLoop cfg R g gridDomains pos

/-! ### `recreate_fig2` -/

/-- A spectrum as returned by `compute_spectrum`. -/
abbrev Estimate := List ℝ × List ℝ × List ℝ

/-- The loop over the realizations, L282-307; the default tolerance of `compute_spectrum` is used. -/
def fig2Loop (a b : LowFreq) (g : ℕ → ℝ) : ℕ → ℕ → Except PyErr (List (Estimate × Estimate))
  | 0, _ => pure []
  | n + 1, pos =>
    match a.generate g pos with
    | (.error e, _) => throw e
    | (.ok _, (a', pos)) =>
      match b.generate g pos with
      | (.error e, _) => throw e
      | (.ok _, (b', pos)) =>
        match a'.computeSpectrum 1e-9 with
        | .error e => throw e
        | .ok sa =>
          match b'.computeSpectrum 1e-9 with
          | .error e => throw e
          | .ok sb =>
            match fig2Loop a' b' g n pos with
            | .error e => throw e
            | .ok rest => pure ((sa, sb) :: rest)

/-- `np.mean(np.array(l), axis=0)` for lists of equal length. -/
def columnMean (l : List (List ℝ)) : List ℝ :=
  (List.range (l.headD []).length).map fun j => (l.map fun r => r.getD j 0).sum / l.length

/-- A numerical curve of the figure: abscissae `k1 L_2d` and ordinates `k1 F11`, `k1 F22`, L327-339. -/
structure Fig2Curve where
  x : List ℝ
  y1 : List ℝ
  y2 : List ℝ

/-- The numerical curves of one generator; `np.argmin` and `np.argmax` of an empty array raise (L353, L364). -/
def fig2Curve (L2d : ℝ) (l : List Estimate) : Except PyErr Fig2Curve :=
  let ks := (l.headD ([], [], [])).1
  let F1 := columnMean (l.map fun s => s.2.1)
  let F2 := columnMean (l.map fun s => s.2.2)
  if ks = [] then throw PyErr.valueError
  else pure ⟨ks.map fun k => k * L2d, List.zipWith (fun k f => k * f) ks F1, List.zipWith (fun k f => k * f) ks F2⟩

/-- `recreate_fig2`, L259-489: the numerical curves of the two generators (`none` when it returns early because there were no
realizations).  The target curves are `analytical_spectrum`. -/
def recreateFig2 (a b : LowFreq) (R : ℕ) (g : ℕ → ℝ) (pos : ℕ) : Except PyErr (Option (Fig2Curve × Fig2Curve)) :=
  match fig2Loop a b g R pos with
  | .error e => throw e
  | .ok l =>
    if l = [] then pure none
    else
      match fig2Curve a.cfg.L2d (l.map Prod.fst) with
      | .error e => throw e
      | .ok ca =>
        match fig2Curve b.cfg.L2d (l.map Prod.snd) with
        | .error e => throw e
        | .ok cb => pure (some (ca, cb))

end
end Verif
