import Verif.Spec.PyIter
import Verif.Spec.DtCall

/-!
# Calls of the optimised functions of a generated module of the amplitude derivatives
-/

namespace TF.Spec.DtIter

open TF.Spec.Source TF.Spec.PyRun TF.Spec.PyIter TF.Spec.Tensor

variable {R : Type} [CommRing R] [Algebra Rat R]

/-- Calls of the functions of a module, as `TF.Spec.PyIter.callS`, with functions of other modules. -/
def callWithS (other : Functions R) (l : List Stmt) : Nat → Functions R
  | 0 => fun _ _ _ => .error .exception
  | depth + 1 => fun f args heap =>
    if f = "log.warning".toList ∧ l.any importsLog = true then .ok (.none, heap)
    else if '.' ∈ f then other f args heap
    else
      match lookup l f with
      | none =>
        match globals (R := R) l f with
        | some (.imported path name) => (callImported heap path name args).map (·, heap)
        | some _ => .error .type
        | none => .error .name
      | some (ps, b) =>
        if ps.length = args.length then
          match execAllS (known l) (callWithS other l depth) ⟨setAll (globals l) ps args, heap⟩ b with
          | .error x => .error x
          | .ok (v, env) => .ok (v.getD .none, env.heap)
        else .error .type

/-- A call from outside of a function that makes optimised expressions; it needs opt_einsum. -/
def callPathsWith (other : Functions R) (l : List Stmt) (depth : Nat) (f : List Char) (args : List (Val R)) : Except PyErr (Val R) :=
  if l.any importsOe then (callWithS other l depth f args []).map (·.1) else .error .name

/-- A call from outside of a function that returns an array; the functions need numpy. -/
def callArrayWithS (other : Functions R) (l : List Stmt) (depth : Nat) (f : List Char) (args : List (Val R)) : Except PyErr (NArr R) :=
  if l.any importsNumpy then
    match callWithS other l depth f args [] with
    | .error x => .error x
    | .ok r =>
      match array r.2 r.1 with
      | some x => .ok x
      | none => .error .type
  else .error .name

end TF.Spec.DtIter
