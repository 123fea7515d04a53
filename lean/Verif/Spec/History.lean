import Verif.Model.History
import Verif.Spec.Program

/-!
# Specification vocabulary for several runs of the driver
-/

namespace TF.Spec.Program

open TF.Program

/-- the command line makes the driver save the values: `-t` with three, four or five values and no `--path` -/
def Saves (a : Parsed) (t : List Int) : Prop := a.t = some t ∧ a.path = none ∧ (t.length = 3 ∨ t.length = 4 ∨ t.length = 5)

/-- the run writes no file with this name -/
def Untouched (p : String) (r : Run) : Prop := ∀ w ∈ r.writes, w.1 ≠ p

end TF.Spec.Program
