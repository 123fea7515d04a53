import Verif.Model.Truncations

/-! # Specification vocabulary for truncations

The documented rules: which keys belong to an ansatz family and what range each value may take. -/

namespace TF.Spec

open TF.Trunc

/-- A number between 1 and `m`. (Python's `True` counts as the number 1.) -/
def NumberInRange (m : Int) : JVal → Prop
  | .int i => 1 ≤ i ∧ i ≤ m
  | .float q => 1 ≤ q ∧ q ≤ (m : Rat)
  | .bool b => b = true
  | .other => False

/-- A Python `dict` has no repeated keys. -/
def IsDict (d : Dict) : Prop := (d.map Prod.fst).Nodup

instance (d : Dict) : Decidable (IsDict d) := inferInstanceAs (Decidable (List.Nodup _))

/-- The value of a key. -/
def HasEntry (d : Dict) (k : PyKey) (v : JVal) : Prop := (k, v) ∈ d

/-- The keys are exactly the (string) keys of the family and all values are in range. -/
structure ValidFile (fam : Family) (d : Dict) : Prop where
  keys : ∀ k, k ∈ d.map Prod.fst ↔ ∃ t ∈ fam.keys, k = .str t.str
  range : ∀ t v, HasEntry d (.str t.str) v → NumberInRange (maximum t) v

/-- The keys are exactly the family's enum members and all values are in range. -/
structure ValidTrunc (fam : Family) (d : Dict) : Prop where
  keys : ∀ k, k ∈ d.map Prod.fst ↔ ∃ t ∈ fam.keys, k = .enum t
  range : ∀ t v, HasEntry d (.enum t) v → NumberInRange (maximum t) v

end TF.Spec
