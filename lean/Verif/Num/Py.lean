/-!
# Python errors and slices
-/

namespace Verif

/-- Python exceptions distinguished by the model (messages are not modelled, only the class). -/
inductive PyErr where
  | valueError
  | typeError
  | attributeError
  | assertionError
  | runtimeError
  | zeroDivisionError
  | fileNotFoundError
  | indexError
  | exception
  | overflowError
  deriving DecidableEq, Repr

/-- Position in a sequence of length `n` denoted by a slice bound `i` (python / numpy rule: a negative
bound counts from the end, the result is clipped to `[0, n]`). -/
def sliceIdx (n : Nat) (i : Int) : Nat :=
  if i < 0 then (i + n).toNat else min i.toNat n

/-- `l[a:b]` (step 1). A missing bound is modelled by `none`. -/
def pySlice {α : Type _} (l : List α) (a b : Option Int) : List α :=
  let lo := match a with | none => 0 | some i => sliceIdx l.length i
  let hi := match b with | none => l.length | some i => sliceIdx l.length i
  (l.take hi).drop lo

end Verif
