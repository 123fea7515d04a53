import Verif.Model.Glue

/-! # Specification vocabulary for dispatch: the documented table of generators -/

namespace TF.Spec

open TF.Trunc TF.Glue

/-- Which generator serves a request and how many truncation values its ansatz has.  There is no
Python generator for the z_t ansatz. -/
def generatorFor : Target → String → Option (Gen × Nat)
  | .python, "full cc" => some (.fccPython, 4)
  | .python, "eT_z_t ansatz" => some (.eTPython, 5)
  | .latex, "full cc" => some (.fccLatex, 4)
  | .latex, "z_t ansatz" => some (.ztLatex, 3)
  | .latex, "eT_z_t ansatz" => some (.eTLatex, 5)
  | _, _ => none

/-- The ansatz a list of command line values belongs to. -/
def ansatzOf : Nat → Option String
  | 3 => some "z_t ansatz"
  | 4 => some "full cc"
  | 5 => some "eT_z_t ansatz"
  | _ => none

/-- Documented ranges of command line values, by position. -/
def InRange (maxima t : List Int) : Prop :=
  t.length = maxima.length ∧ ∀ i (h₁ : i < t.length) (h₂ : i < maxima.length), 1 ≤ t[i] ∧ t[i] ≤ maxima[i]

end TF.Spec
