import Verif.Model.ETPython

/-!
# Model of the module written by `code_eT_zhz.py`: the functions and their names

The definitions in the order of the file (code_eT_zhz.py 1996-2033), without docstrings and headers.  The
text is in `Verif.Model.ETPython` (`fnText`, `masterText`).
-/

namespace TF.ETPy

open TF.Py
open TF.CC (Op)
open TF.ET (Mode)

/-- The body of a generated function. -/
inductive Body
  /-- `if ansatz.ground_state: <ground> else: <excited>` (code_eT_zhz.py 1850-1859); `none` is the `raise` of
  1789-1792.  `args` are the names of the dictionaries among the arguments, `paths` says whether there is
  the argument `opt_einsum` (1820-1830). -/
  | terms (args : List String) (paths : Bool) (ground : Part) (excited : Option Part)
  /-- the calls `truncation.confirm_at_least_...()`, a tensor of zeros with one axis of length `A` and `axes`
  axes of length `N`, with `paths` the unpacking of `opt_paths` into two, the two calls with this tensor and
  all other arguments, `return` of the tensor (code_eT_zhz.py 1896-1963) -/
  | amplitude (args : List String) (paths : Bool) (confirms : List String) (axes : Nat) (calls : List String)
  deriving DecidableEq, Repr

/-- `specifier_string` (code_eT_zhz.py 1783, 1899) -/
def specifier (p : Op) : String := "m" ++ toString p.m ++ "_n" ++ toString p.n

/-- the dictionaries among the arguments (code_eT_zhz.py 1820-1830, 1914-1923) -/
def argNames : Mode → List String
  | .rhs => ["t_args", "h_args", "z_args"]
  | .lhs => ["t_conj", "dT", "z_args", "dz_args"]

/-- names of the functions with the terms (code_eT_zhz.py 1807-1817) -/
def termsName (mode : Mode) (opt : Bool) (p : Op) (kind : String) : String :=
  (match mode with | .rhs => "add_" | .lhs => "compute_") ++ specifier p ++ "_" ++ kind ++
    (match mode with | .rhs => "_terms" | .lhs => "_LHS") ++ (if opt then "_optimized" else "")

/-- `_construct_eT_zhz_compute_function` (code_eT_zhz.py 1780-1874): the two functions -/
def termsDefs (mode : Mode) (opt : Bool) (f : Fns) : List (String × Body) :=
  [(termsName mode opt f.omega "HZ", .terms (argNames mode) opt f.ground.1 (f.excited.map Prod.fst)),
   (termsName mode opt f.omega "eT_HZ", .terms (argNames mode) opt f.ground.2 (f.excited.map Prod.snd))]

/-- `_write_master_eT_zhz_compute_function` (code_eT_zhz.py 1896-1963); the names of the called functions are
put together there a second time -/
def masterDef (mode : Mode) (opt : Bool) (p : Op) : String × Body :=
  let step := match mode with | .rhs => "add" | .lhs => "compute"
  let ty := match mode with | .rhs => "terms" | .lhs => "LHS"
  let o := if opt then "_optimized" else ""
  ("compute_" ++ specifier p ++ "_amplitude" ++ o,
    .amplitude (argNames mode) opt (confirms p) p.rank
      [step ++ "_" ++ specifier p ++ "_HZ_" ++ ty ++ o, step ++ "_" ++ specifier p ++ "_eT_HZ_" ++ ty ++ o])

/-- The definitions of the module in the order of the file (code_eT_zhz.py 1996-2033). -/
def moduleDefs (mode : Mode) (m : Module) : List (String × Body) :=
  m.default.flatMap (termsDefs mode false) ++ m.default.map (fun f => masterDef mode false f.omega) ++
    (m.optimised.flatMap (termsDefs mode true) ++ m.optimised.map fun f => masterDef mode true f.omega)

end TF.ETPy
