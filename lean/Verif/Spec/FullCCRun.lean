import Verif.Model.FullCC.Module
import Verif.Spec.FullCCPython

/-!
# Running the functions of a generated full-CC module

The meaning of the Python constructs that occur in the module.  Tensors are not evaluated: running a
function gives the list of the additions to `R` it performs.
-/

namespace TF.Spec.CCRun

open TF.Py TF.CC TF.Spec

/-- What the caller passes: `ansatz.ground_state`, whether `truncation.confirm_at_least_singles()` returns,
the other truncation flags, and which keys `h_args` and `t_args` have. -/
structure Caller where
  ground : Bool
  singles : Bool
  fl : Flags
  h : Nat × Nat → Bool
  t : Nat × Nat → Bool

/-- A global name means the last definition with this name. -/
def lookup (M : List (String × Body)) (f : String) : Option Body := (M.reverse.find? fun d => d.1 == f).map Prod.snd

/-- An addition to `R`: `R += h_args[key]` or `R += prefactor * (item + item + ...)`. -/
inductive Added (ι : Type)
  | h (key : Nat × Nat)
  | sum (pref : String) (items : List ι)

/-- A missing key raises `KeyError`. -/
def keysOk {ι : Type} (env : Caller) (keys : ι → (Nat × Nat) × List (Nat × Nat)) (p : Program ι) : Bool :=
  p.adds.all env.h && (runItems env.fl p).all fun i => env.h (keys i).1 && (keys i).2.all env.t

/-- Call of `add_..._terms`. -/
def callAdd (M : List (String × Body)) (env : Caller) (f : String) : Except PyErr (List (Added Einsum)) :=
  match lookup M f with
  | none => .error .name
  | some (.add p) =>
    if env.ground then
      if keysOk env (fun e => (e.h, e.ts)) p then .ok (p.adds.map .h ++ (run env.fl p).map fun g => .sum g.1 g.2) else .error .key
    else .error .notImplemented
  | some _ => .error .type

/-- calls one after the other -/
def callAdds (M : List (String × Body)) (env : Caller) : List String → Except PyErr (List (Added Einsum))
  | [] => .ok []
  | f :: fs =>
    match callAdd M env f with
    | .error e => .error e
    | .ok a =>
      match callAdds M env fs with
      | .error e => .error e
      | .ok b => .ok (a ++ b)

/-- Call of `compute_..._amplitude`: the number of vibrational axes of `R` and what is added to it. -/
def callAmplitude (M : List (String × Body)) (env : Caller) (f : String) : Except PyErr (Nat × List (Added Einsum)) :=
  match lookup M f with
  | none => .error .name
  | some (.amplitude axes calls) =>
    if env.singles then
      match callAdds M env calls with
      | .error e => .error e
      | .ok a => .ok (axes, a)
    else .error .exception
  | some _ => .error .type

/-- Call of `compute_..._<term type>_optimized_paths`: the list of expressions. -/
def callTypePaths (M : List (String × Body)) (env : Caller) (f : String) : Except PyErr (List Path) :=
  match lookup M f with
  | none => .error .name
  | some (.typePaths p) => if env.ground then .ok (runItems env.fl p) else .error .notImplemented
  | some _ => .error .type

def callTypesPaths (M : List (String × Body)) (env : Caller) : List String → Except PyErr (List (List Path))
  | [] => .ok []
  | f :: fs =>
    match callTypePaths M env f with
    | .error e => .error e
    | .ok a =>
      match callTypesPaths M env fs with
      | .error e => .error e
      | .ok b => .ok (a :: b)

/-- Call of `compute_..._optimized_paths`: the key and the value of the returned dictionary. -/
def callOpPaths (M : List (String × Body)) (env : Caller) (f : String) : Except PyErr ((Nat × Nat) × List (List Path)) :=
  match lookup M f with
  | none => .error .name
  | some (.opPaths calls key) =>
    if env.singles then
      match callTypesPaths M env calls with
      | .error e => .error e
      | .ok a => .ok (key, a)
    else .error .exception
  | some _ => .error .type

/-- The assignments to the list `all_opt_path_lists`: the value is computed first, then a list with a tuple
as index raises `TypeError`. -/
def assignAll (M : List (String × Body)) (env : Caller) : List ((Nat × Nat) × String) → Except PyErr Unit
  | [] => .ok ()
  | (key, f) :: _ =>
    match callOpPaths M env f with
    | .error e => .error e
    | .ok (k, _) => if k = key then .error .type else .error .key

/-- Call of `compute_all_optimized_paths`. -/
def callAllPaths (M : List (String × Body)) (env : Caller) (f : String) : Except PyErr Unit :=
  match lookup M f with
  | none => .error .name
  | some (.allPaths es) => assignAll M env es
  | some _ => .error .type

/-- The sums of an optimised function with the expressions that serve the calls; `none` is
`StopIteration`. -/
def serveSums : List Path → List (String × List OptCall) → Option (List (Added (OptCall × Path)))
  | _, [] => some []
  | ps, g :: gs =>
    match serve ps g.2 with
    | none => none
    | some (s, ps') => (serveSums ps' gs).map fun r => .sum g.1 s :: r

/-- Call of `add_..._terms_optimized` with a list of expressions. -/
def callAddOpt (M : List (String × Body)) (env : Caller) (f : String) (ps : List Path) : Except PyErr (List (Added (OptCall × Path))) :=
  match lookup M f with
  | none => .error .name
  | some (.addOpt p) =>
    if env.ground then
      if keysOk env (fun e => (e.h, e.ts)) p then
        match serveSums ps (run env.fl p) with
        | none => .error .exception
        | some r => .ok (p.adds.map .h ++ r)
      else .error .key
    else .error .notImplemented
  | some _ => .error .type

def callAddsOpt (M : List (String × Body)) (env : Caller) : List (String × List Path) → Except PyErr (List (Added (OptCall × Path)))
  | [] => .ok []
  | (f, ps) :: fs =>
    match callAddOpt M env f ps with
    | .error e => .error e
    | .ok a =>
      match callAddsOpt M env fs with
      | .error e => .error e
      | .ok b => .ok (a ++ b)

/-- Call of `compute_..._amplitude_optimized` with a dictionary of lists of expressions. -/
def callAmplitudeOpt (M : List (String × Body)) (env : Caller) (paths : Nat × Nat → Option (List (List Path))) (f : String) :
    Except PyErr (Nat × List (Added (OptCall × Path))) :=
  match lookup M f with
  | none => .error .name
  | some (.amplitudeOpt axes key calls) =>
    if env.singles then
      match paths key with
      | none => .error .key
      | some l =>
        if l.length = calls.length then
          match callAddsOpt M env (calls.zip l) with
          | .error e => .error e
          | .ok a => .ok (axes, a)
        else .error .value
    else .error .exception
  | some _ => .error .type

/-- The same addition, without the expression. -/
def Added.forget : Added (OptCall × Path) → Added OptCall
  | .h k => .h k
  | .sum p l => .sum p (l.map Prod.fst)

/-- The operands of an einsum. -/
def Added.operands : Added Einsum → Added OptCall
  | .h k => .h k
  | .sum p l => .sum p (l.map fun e => ⟨e.h, e.ts⟩)

end TF.Spec.CCRun
