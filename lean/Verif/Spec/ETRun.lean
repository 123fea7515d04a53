import Verif.Model.ETModule
import Verif.Spec.ETPython

/-!
# Running the functions of a generated e^T module

The meaning of the Python constructs that occur in the module.  Tensors are not evaluated: running a
function gives the list of the products it adds to the tensor, with their prefactors.
-/

namespace TF.Spec.ETRun

open TF.Py TF.ETPy

/-- What the caller passes: `ansatz.ground_state`; which `truncation.confirm_at_least_...()` return; the
values of `truncation.h_at_least_...`, `truncation.t_...` and `truncation.z_at_least_...` by rank; which keys the
dictionaries have. -/
structure Caller where
  ground : Bool
  confirm : String → Bool
  h : Nat → Bool
  t : Nat → Bool
  z : Nat → Bool
  has : String → Nat × Nat → Bool

/-- A global name means the last definition with this name. -/
def lookup (M : List (String × Body)) (f : String) : Option Body := (M.reverse.find? fun d => d.1 == f).map Prod.snd

/-- The products a statement adds, with its prefactor. -/
def runStmts (l : List Stmt) : List (Rat × Einsum) := l.flatMap fun s => s.codes.map fun c => (s.pref, c)

/-- `if truncation.z_at_least_...:`, no gate for rank 0 -/
def runZ (env : Caller) (l : List ZBlock) : List (Rat × Einsum) :=
  l.flatMap fun b => if b.z = 0 ∨ env.z b.z = true then runStmts b.stmts else []

/-- `if truncation.h_at_least_...:` (no gate for rank 0), inside `if truncation.t_...:` -/
def runH (env : Caller) (b : HBlock) : List (Rat × Einsum) :=
  if b.h = 0 ∨ env.h b.h = true then
    runZ env b.zero ++ b.ts.flatMap fun p => if env.t p.1 = true then runZ env p.2 else []
  else []

/-- `pass` does nothing. -/
def runPart (env : Caller) : Part → List (Rat × Einsum)
  | .allInvalid => []
  | .noTerms => []
  | .code l => l.flatMap (runH env)

/-- A name that is no argument raises `NameError`, a missing key `KeyError`. -/
def evalOperands (env : Caller) (args : List String) : List Operand → Except PyErr Unit
  | [] => .ok ()
  | o :: os =>
    if o.name ∈ args then
      if env.has o.name (o.m, o.n) then evalOperands env args os else .error .key
    else .error .name

/-- the operands of one product after the other -/
def evalAll (env : Caller) (args : List String) : List (Rat × Einsum) → Except PyErr Unit
  | [] => .ok ()
  | x :: l =>
    match evalOperands env args x.2.operands with
    | .error e => .error e
    | .ok () => evalAll env args l

/-- Call of a function with terms; `path` says whether a last argument is passed for `opt_einsum`. -/
def callTerms (M : List (String × Body)) (env : Caller) (f : String) (path : Bool) : Except PyErr (List (Rat × Einsum)) :=
  match lookup M f with
  | none => .error .name
  | some (.terms args paths g x) =>
    if path = paths then
      match (if env.ground then some g else x) with
      | none => .error .notImplemented
      | some p =>
        match evalAll env args (runPart env p) with
        | .error e => .error e
        | .ok () => .ok (runPart env p)
    else .error .type
  | some _ => .error .type

/-- calls one after the other -/
def callAll (M : List (String × Body)) (env : Caller) (path : Bool) : List String → Except PyErr (List (Rat × Einsum))
  | [] => .ok []
  | f :: fs =>
    match callTerms M env f path with
    | .error e => .error e
    | .ok a =>
      match callAll M env path fs with
      | .error e => .error e
      | .ok b => .ok (a ++ b)

/-- Call of `compute_..._amplitude`, or of `compute_..._amplitude_optimized` with `opt_paths` of some length: the
number of vibrational axes of the result and what is added to it. -/
def callAmplitude (M : List (String × Body)) (env : Caller) (f : String) (optPaths : Option Nat) : Except PyErr (Nat × List (Rat × Einsum)) :=
  match lookup M f with
  | none => .error .name
  | some (.amplitude _ paths confirms axes calls) =>
    if optPaths.isSome = paths then
      if confirms.all env.confirm then
        if optPaths = none ∨ optPaths = some 2 then
          match callAll M env paths calls with
          | .error e => .error e
          | .ok a => .ok (axes, a)
        else .error .value
      else .error .exception
    else .error .type
  | some _ => .error .type

end TF.Spec.ETRun
