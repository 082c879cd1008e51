import Verif.Model.Generator

/-!
# Which arrays the generated field shares with the caller

`generate` (fluctuation_field_generator.py L502-504) returns the attribute `total_fluctuation` itself.  `np.concatenate` (L500)
makes a new array for every block, so the array that an earlier call returned is not the one that later calls extend; a call
with no block returns the same array once more.  The caller may assign to the entries of any array they hold.
-/

namespace Verif
open Fl

noncomputable section
open Classical

/-- All arrays that have been the value of `total_fluctuation`, the object (its `total` is superseded by the array number
`tot`), and the number of the array that is `total_fluctuation` now. -/
structure FieldSess where
  heap : List (Arr Fl)
  gen : Gen
  tot : ℕ

/-- The object with the current contents of its array. -/
def FieldSess.view (s : FieldSess) : Gen := { s.gen with total := s.heap.getD s.tot s.gen.total }

/-- Just constructed (L186: `total_fluctuation = np.zeros((0, Ny, Nz, 3))`). -/
def FieldSess.start (g : Gen) : FieldSess := ⟨[g.total], g, 0⟩

/-- Body of the block loop (L430-500): a successful block ends with the assignment of a new array. -/
def FieldSess.block (p : ProfileArgs) (i : ℕ) (s : FieldSess) : Except PyErr Unit × FieldSess :=
  match s.view.blockStep p i with
  | (.error e, g) => (.error e, { s with gen := g })
  | (.ok _, g) => (.ok (), ⟨s.heap ++ [g.total], g, s.heap.length⟩)

/-- The block loop. -/
def FieldSess.loop (p : ProfileArgs) : ℕ → ℕ → FieldSess → Except PyErr Unit × FieldSess
  | 0, _, s => (.ok (), s)
  | n + 1, i, s =>
    match s.block p i with
    | (.error e, s) => (.error e, s)
    | (.ok _, s) => FieldSess.loop p n (i + 1) s

/-- `generate`, L370-504: the result is an array, not its contents. -/
def FieldSess.generate (p : ProfileArgs) (n : ℕ) (s : FieldSess) : Except PyErr ℕ × FieldSess :=
  match FieldSess.loop p n 0 s with
  | (.error e, s) => (.error e, s)
  | (.ok _, s) => (.ok s.tot, s)

/-- Two arrays of the same shape. -/
def Arr.SameShape (x y : Arr Fl) : Prop :=
  x.n2 = y.n2 ∧ x.n3 = y.n3 ∧ x.planes.map (fun p => p.map List.length) = y.planes.map fun p => p.map List.length

/-- `a[...] = f` for an array of the same shape (other shapes are not considered: some are broadcast). -/
def FieldSess.edit (a : ℕ) (f : Arr Fl) (s : FieldSess) : FieldSess :=
  match s.heap[a]? with
  | none => s
  | some x => if x.SameShape f then { s with heap := s.heap.set a f } else s

/-- What the caller does. -/
inductive FieldCmd where
  | generate (n : ℕ) (p : ProfileArgs)
  | edit (a : ℕ) (f : Arr Fl)

/-- State after one command. -/
def FieldCmd.run : FieldCmd → FieldSess → FieldSess
  | .generate n p, s => (s.generate p n).2
  | .edit a f, s => s.edit a f

/-- State after several. -/
def FieldSess.after (cs : List FieldCmd) (s : FieldSess) : FieldSess := cs.foldl (fun s c => c.run s) s

/-- The calls of `generate` among the commands. -/
def generateCalls : List FieldCmd → List (ℕ × ProfileArgs)
  | [] => []
  | .generate n p :: cs => (n, p) :: generateCalls cs
  | .edit _ _ :: cs => generateCalls cs

end
end Verif
