import Verif.Model.FullCC.Python

/-!
# Model of the module written by `code_full_cc.py`: the functions and their names

A module is the list of its definitions in the order of the file (code_full_cc.py 1230-1284).  Headers,
docstrings and import statements are left out.
-/

namespace TF.CC

open TF.Py

/-- `specifier_string` (code_full_cc.py 648, 749, 1084, 1158) -/
def specifier (o : Op) : String := "m" ++ toString o.m ++ "_n" ++ toString o.n

/-- the three term types (code_full_cc.py 676, 797) -/
def termTypes : List String := ["fully_connected", "linked_disconnected", "unlinked_disconnected"]

/-- The body of a generated function. -/
inductive Body
  /-- `if ansatz.ground_state: <program> else: raise NotImplementedError` (code_full_cc.py 706-715) -/
  | add (p : Program Einsum)
  /-- the same after `optimized_einsum = iter(<last argument>)` (696-700) -/
  | addOpt (p : Program OptCall)
  /-- a list is filled, under the same `if`, and returned (1107-1118) -/
  | typePaths (p : Program Path)
  /-- `truncation.confirm_at_least_singles()`, `R = np.zeros(..)` with `axes` axes of length `N`, the calls
  with `R` and all arguments, `return R` (753-765) -/
  | amplitude (axes : Nat) (calls : List String)
  /-- the same with three lists of paths unpacked from `opt_path_lists[key]`, one for each call
  (768-784) -/
  | amplitudeOpt (axes : Nat) (key : Nat × Nat) (calls : List String)
  /-- `truncation.confirm_at_least_singles()`, the calls, and a dictionary with one entry: the list of
  the results (1161-1175) -/
  | opPaths (calls : List String) (key : Nat × Nat)
  /-- `all_opt_path_lists = []`, then `all_opt_path_lists[key] = f(A, N, ansatz, truncation)[key]` for each
  entry `(key, f)` (1191-1207) -/
  | allPaths (entries : List ((Nat × Nat) × String))

/-- names of the functions of one kind for the three term types -/
def addName (o : Op) (ty : String) : String := "add_" ++ specifier o ++ "_" ++ ty ++ "_terms"
/-- code_full_cc.py 684 -/
def addOptName (o : Op) (ty : String) : String := "add_" ++ specifier o ++ "_" ++ ty ++ "_terms_optimized"
/-- code_full_cc.py 1108 -/
def typePathsName (o : Op) (ty : String) : String := "compute_" ++ specifier o ++ "_" ++ ty ++ "_optimized_paths"

/-- `_generate_full_cc_compute_functions` (code_full_cc.py 643-725), both versions -/
def addDefs (c : OmegaCode) : List (String × Body) :=
  List.zipWith (fun ty p => (addName c.omega ty, .add p)) termTypes c.default
def addOptDefs (c : OmegaCode) : List (String × Body) :=
  List.zipWith (fun ty p => (addOptName c.omega ty, .addOpt p)) termTypes c.opt

/-- `_generate_optimized_paths_functions` (code_full_cc.py 1081-1132) -/
def typePathsDefs (c : OmegaCode) : List (String × Body) :=
  List.zipWith (fun ty p => (typePathsName c.omega ty, .typePaths p)) termTypes c.paths

/-- `_write_master_full_cc_compute_function` (code_full_cc.py 746-792) -/
def amplitudeDef (o : Op) : String × Body :=
  ("compute_" ++ specifier o ++ "_amplitude",
    .amplitude o.rank ["add_" ++ specifier o ++ "_fully_connected_terms", "add_" ++ specifier o ++ "_linked_disconnected_terms",
      "add_" ++ specifier o ++ "_unlinked_disconnected_terms"])
def amplitudeOptDef (o : Op) : String × Body :=
  ("compute_" ++ specifier o ++ "_amplitude_optimized",
    .amplitudeOpt o.rank (o.m, o.n) ["add_" ++ specifier o ++ "_fully_connected_terms_optimized",
      "add_" ++ specifier o ++ "_linked_disconnected_terms_optimized",
      "add_" ++ specifier o ++ "_unlinked_disconnected_terms_optimized"])

/-- `_write_grouped_optimized_paths_function` (code_full_cc.py 1152-1183) -/
def opPathsDef (o : Op) : String × Body :=
  ("compute_" ++ specifier o ++ "_optimized_paths",
    .opPaths ["compute_" ++ specifier o ++ "_fully_connected_optimized_paths",
      "compute_" ++ specifier o ++ "_linked_disconnected_optimized_paths",
      "compute_" ++ specifier o ++ "_unlinked_disconnected_optimized_paths"] (o.m, o.n))

/-- `_write_optimized_master_paths_function` (code_full_cc.py 1185-1214) -/
def allPathsDef (os : List Op) : String × Body :=
  ("compute_all_optimized_paths",
    .allPaths (os.map fun o => ((o.m, o.n), "compute_m" ++ toString o.m ++ "_n" ++ toString o.n ++ "_optimized_paths")))

/-- The definitions of the module in the order of the file (code_full_cc.py 1230-1284). -/
def moduleDefs (F : List OmegaCode) : List (String × Body) :=
  F.flatMap addDefs ++ F.map (fun c => amplitudeDef c.omega) ++ F.flatMap addOptDefs ++ F.map (fun c => amplitudeOptDef c.omega) ++
    F.flatMap typePathsDefs ++ F.map (fun c => opPathsDef c.omega) ++ [allPathsDef (F.map OmegaCode.omega)]

end TF.CC
