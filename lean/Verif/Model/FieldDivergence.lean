import Verif.Model.Generator

/-!
# `evaluate_divergence` with its default argument

`fluctuation_field_generator.py` L527-584.
-/

namespace Verif
noncomputable section

/-- `generator.evaluate_divergence(spacing, field)`, L566-584: without a field the accumulated one is used (L573-574).  The
entries of `spacing` are numbers (`np.gradient` also accepts arrays of coordinates, not modelled). -/
def Gen.evaluateDivergence (g : Gen) (spacing : List ℝ) (field : Option Field4) : Except PyErr (ℕ → ℕ → ℕ → Fl) :=
  evalDivergence spacing (field.getD g.field4)

end
end Verif
