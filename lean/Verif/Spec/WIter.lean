import Verif.Spec.PyIter
import Verif.Spec.WCall

/-!
# Calls of the optimised functions of a generated W module
-/

namespace TF.Spec.WIter

open TF.Spec.Source TF.Spec.PyRun TF.Spec.PyIter TF.Spec.Tensor TF.Spec.WCall

variable {R : Type} [CommRing R] [Algebra Rat R]

/-- A call from outside of a function that makes optimised expressions; it needs opt_einsum. -/
def callPaths (l : List Stmt) (depth : Nat) (f : List Char) (args : List (Val R)) : Except PyErr (Val R) :=
  if l.any importsOe then (callS l depth f args []).map (·.1) else .error .name

/-- A call from outside of a function that returns a tuple of arrays and `None`; the functions need numpy. -/
def callTupleS (l : List Stmt) (depth : Nat) (f : List Char) (args : List (Val R)) : Except PyErr (List (Option (NArr R))) :=
  if l.any importsNumpy then
    match callS l depth f args [] with
    | .error x => .error x
    | .ok (.tuple vs, heap) =>
      match vs.mapM (entry heap) with
      | some l => .ok l
      | none => .error .type
    | .ok _ => .error .type
  else .error .name

end TF.Spec.WIter
