import Verif.Spec.ResidualCall
import Verif.Spec.W

/-!
# The arguments and the results of the functions of a generated W module

What `Verif.Spec.W.Env` says about the arguments, as Python values.
-/

namespace TF.Spec.WCall

open TF.Spec.Source TF.Spec.PyRun TF.Spec.Tensor TF.Spec.W TF.Spec.ResidualCall

variable {R : Type}

/-- The truth values of the truncation object. -/
def truncation (env : Env) : Val R :=
  .obj (fun w => [("singles", env.fl 1), ("doubles", env.fl 2), ("triples", env.fl 3), ("quadruples", env.fl 4), ("quintuples", env.fl 5),
    ("sextuples", env.fl 6)].lookup (String.ofList w)) fun _ => none

/-- The truth values of the ansatz object. -/
def ansatz (env : Env) : Val R := .obj (fun w => [("VE_MIXED", env.mixed), ("VECC", env.cc)].lookup (String.ofList w)) fun _ => none

/-- The amplitudes of the orders `1, 2, ..`. -/
def amplitudes (A N : Nat) (env : Env) (t : Nat → Arr R) : Val R := .tuple ((List.range env.tlen).map fun i => .arr (tensor A N (i + 1) (t (i + 1))))

/-- `A, N, t_args, ansatz, truncation` -/
def inputs (A N : Nat) (env : Env) (t : Nat → Arr R) : List (Val R) := [.num A, .num N, amplitudes A N env t, ansatz env, truncation env]

/-- The number of orders for a truncation that contains the singles: one order more than the ranks without a gap, plus one; at least 3 and at most 6. -/
def attempted (fl : Nat → Bool) : Nat := if !fl 2 then 3 else if !fl 3 then 4 else if !fl 4 then 5 else 6

variable [CommRing R] [Algebra Rat R]

/-- an array or `None` -/
def entry (heap : List (NArr R)) : Val R → Option (Option (NArr R))
  | .none => some none
  | v => (array heap v).map some

/-- A call from outside of a function that returns a tuple of arrays and `None`; the functions need numpy. -/
def callTuple (l : List Stmt) (depth : Nat) (f : List Char) (args : List (Val R)) : Except PyErr (List (Option (NArr R))) :=
  if l.any importsNumpy then
    match call l depth f args [] with
    | .error x => .error x
    | .ok (.tuple vs, heap) =>
      match vs.mapM (entry heap) with
      | some l => .ok l
      | none => .error .type
    | .ok _ => .error .type
  else .error .name

end TF.Spec.WCall
