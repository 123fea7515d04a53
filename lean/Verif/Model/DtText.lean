import Verif.Model.Dt
import Verif.Model.WText

/-!
# The text of the generated module of the amplitude derivatives (`termfactory/code_dt_equations.py`)

The text is represented by its lines.
-/

namespace TF.Dt

open TF.Py TF.Helper TF.W
open TF.CC (tabs)

/-! ## Disconnected terms -/

/-- the two kinds of disconnected terms -/
inductive Side
  | linked
  | unlinked
  deriving DecidableEq, Repr

/-- the word in the names of the functions and arrays (code_dt_equations.py 147, 158, 199, 252, 263, 304) -/
def Side.name : Side → String
  | .linked => "linked"
  | .unlinked => "un_linked"

/-- the name of the list of paths (code_dt_equations.py 158, 169-171, 263, 274-276) -/
def Side.paths : Side → String
  | .linked => "opt_linked_path_list"
  | .unlinked => "opt_unlinked_path_list"

/-- the array that is returned (code_dt_equations.py 199, 304) -/
def Side.array (s : Side) : String := s.name ++ "_disconnected_terms"

/-- the partitions in the order of the statements (code_dt_equations.py 207, 312) -/
def Side.partitions : Side → Nat → List (List Nat)
  | .linked => linkedPartitions
  | .unlinked => unlinkedPartitions

/-- the name of a function -/
def sideName (side : Side) (opt : Bool) (order : Nat) : String := "_order_" ++ toString order ++ "_" ++ side.name ++ "_disconnected_terms" ++ optSuffix opt

/-- the first line of a function (code_dt_equations.py 147, 158, 252, 263) -/
def sideHead (side : Side) (opt : Bool) (order : Nat) : String :=
  "def " ++ sideName side opt order ++ "(A, N, trunc, t_args, dt_args" ++ (if opt then ", " ++ side.paths else "") ++ "):"

/-- the docstring (code_dt_equations.py 148-151, 159-163, 253-256, 264-268) -/
def sideDoc (side : Side) (opt : Bool) : List String :=
  (match side, opt with
    | .linked, false =>
      [tabs 1 ++ "\"\"\"Calculate all uniquely linked disconnected terms generated from the wave operator ansatz.",
        tabs 1 ++ "This means for order 5 we include terms such as (4, 1), (3, 1, 1), (2, 1, 1, 1), (1, 1, 1, 1, 1)",
        tabs 1 ++ "But not terms (5), (3, 2), (2, 2, 1)"]
    | .linked, true =>
      [tabs 1 ++ "\"\"\"Calculate all uniquely linked disconnected terms generated from the wave operator ansatz.",
        tabs 1 ++ "This means for order 5 we include terms such as (4, 1), (3, 1, 1), (2, 1, 1, 1)",
        tabs 1 ++ "But not terms (5), (3, 2), (2, 2, 1), (1, 1, 1, 1, 1)",
        tabs 1 ++ "Uses optimized summation paths generate using `contract_expression` from the `opt_einsum` library."]
    | .unlinked, false =>
      [tabs 1 ++ "\"\"\"Calculate all uniquely un-linked disconnected terms generated from the wave operator ansatz.",
        tabs 1 ++ "This means for order 5 we include terms such as (3, 2), (2, 2, 1)",
        tabs 1 ++ "But not terms (5), (4, 1), (3, 1, 1), (2, 1, 1, 1), (1, 1, 1, 1, 1)"]
    | .unlinked, true =>
      [tabs 1 ++ "\"\"\"Calculate all uniquely un-linked disconnected terms generated from the wave operator ansatz.",
        tabs 1 ++ "This means for order 5 we include terms such as (3, 2), (2, 2, 1)",
        tabs 1 ++ "But not terms (5), (4, 1), (3, 1, 1), (2, 1, 1, 1), (1, 1, 1, 1, 1)",
        tabs 1 ++ "Uses optimized summation paths generate using `contract_expression` from the `opt_einsum` library."]) ++ [tabs 1 ++ "\"\"\""]

/-- the body of the functions that only raise (code_dt_equations.py 187-196, 292-301) -/
def sideRaise : Side → List String
  | .linked =>
    [tabs 1 ++ "\"\"\"Exists for error checking.\"\"\"", tabs 1 ++ "raise Exception(", tabs 2 ++ "\"the first possible purely VECI/CC term is (1, 1) or (dt_i * t_i)\"",
      tabs 2 ++ "\"which requires a residual of at least 2nd order\"", tabs 1 ++ ")"]
  | .unlinked =>
    [tabs 1 ++ "\"\"\"Exists for error checking.\"\"\"", tabs 1 ++ "raise Exception(", tabs 2 ++ "\"the first possible purely VECC term is (2, 2) or (dt_ij * t_ij)\"",
      tabs 2 ++ "\"which requires a residual of at least 4th order\"", tabs 1 ++ ")"]

/-- `dt_terms[n].string` (code_dt_equations.py 29-39) -/
def dtString (n : Nat) : String := "d" ++ tString n

/-- `dt_i, dt_ij, .., *unusedargs = dt_args` (code_dt_equations.py 143, 248) -/
def unpackDtLine (ns : List Nat) : String := tabs 1 ++ ", ".intercalate (ns.map dtString ++ ["*unusedargs"]) ++ " = dt_args"

/-- a Python tuple of numbers -/
def tupleString (p : List Nat) : String :=
  match p with
  | [n] => "(" ++ toString n ++ ",)"
  | _ => "(" ++ ", ".intercalate (p.map toString) ++ ")"

/-- the statement of a partition (code_dt_equations.py 209-230, 314-335): one line for each summand -/
def DBlock.lines {ι : Type} (r : ι → String) (array : String) (p : List Nat) (b : DBlock ι) : List String :=
  (tabs 1 ++ "# the " ++ tupleString p ++ " term") :: sumLines r 1 (array ++ " += " ++ renderPref b.pref ++ " * ") (some 0) b.items

/-- the text of `_write_linked_disconnected_strings` (code_dt_equations.py 134-234) and `_write_un_linked_disconnected_strings` (239-339); it begins with an empty line -/
def Disconnected.lines {ι : Type} (r : ι → String) (side : Side) (opt : Bool) (order : Nat) (c : Disconnected ι) : List String :=
  ["", sideHead side opt order] ++
  match c.blocks with
  | none => sideRaise side
  | some bs => sideDoc side opt ++ [tabs 1 ++ "# unpack the `t_args` and 'dt_args'", unpackLine c.unpacked, unpackDtLine c.unpacked] ++
      (if opt then [tabs 1 ++ "# make an iterable out of the `" ++ side.paths ++ "`", tabs 1 ++ "optimized_einsum = iter(" ++ side.paths ++ ")"] else []) ++
      [tabs 1 ++ "# Creating the " ++ (numTags[order]?).getD "" ++ " order return array",
        tabs 1 ++ side.array ++ " = np.zeros((" ++ ", ".intercalate ("A" :: "A" :: List.replicate order "N") ++ "), dtype=complex)"] ++
      (((side.partitions order).zip bs).flatMap fun x => DBlock.lines r side.array x.1 x.2) ++ ["", tabs 1 ++ "return " ++ side.array]

/-! ## The function of one order -/

/-- `w_i`, `w_ij`, .. (`w_dict`, code_residual_equations.py 334-343) -/
def wString (n : Nat) : String := "w_" ++ String.ofList (modeTags.take n)

/-- the name of a function -/
def dtFnName (opt : Bool) (order : Nat) : String := "_calculate_order_" ++ toString order ++ "_dt_amplitude" ++ optSuffix opt

/-- the first line and the docstring (code_dt_equations.py 355-370) -/
def dtHead (opt : Bool) (order : Nat) : List String :=
  if opt then
    ["def " ++ dtFnName opt order ++ "(A, N, ansatz, trunc, epsilon, h_args, t_args, dt_args, w_args, opt_epsilon, opt_linked_path_list, opt_unlinked_path_list):",
      tabs 1 ++ "\"\"\"Calculate the derivative of the " ++ toString order ++ " t-amplitude for use in the calculation of the residuals.",
      tabs 1 ++ "Uses optimized summation paths generate using `contract_expression` from the `opt_einsum` library.", tabs 1 ++ "\"\"\""]
  else
    ["def " ++ dtFnName opt order ++ "(A, N, ansatz, trunc, epsilon, h_args, t_args, dt_args, w_args):",
      tabs 1 ++ "\"\"\"Calculate the derivative of the " ++ toString order ++ " t-amplitude for use in the calculation of the residuals.\"\"\""]

/-- the product with epsilon (code_dt_equations.py 396-398, 419-421) -/
def epsilonTerm (opt : Bool) (f : DtFunction) : String :=
  "1/factorial(" ++ toString f.epsPref ++ ") * " ++
    (if opt then "opt_epsilon(" ++ wString f.order ++ ", epsilon)"
      else "np.einsum('" ++ ",".intercalate (f.epsilon.subs.map String.ofList) ++ "->" ++ String.ofList f.epsilon.out ++ "', " ++ wString f.order ++ ", epsilon)")

/-- a call of a function of disconnected terms (code_dt_equations.py 405-416, 428-439) -/
def subtractLine (side : Side) (opt : Bool) (order : Nat) : String :=
  tabs 2 ++ "residual -= " ++ sideName side opt order ++ "(A, N, trunc, t_args, dt_args" ++ (if opt then ", " ++ side.paths else "") ++ ")"

/-- `vemx_operations` (code_dt_equations.py 400-406, 423-429) -/
def mixedLines (opt : Bool) (order : Nat) (calls : Bool × Bool) : List String :=
  if calls.1 then [subtractLine .linked opt order] else [tabs 2 ++ "pass  # no linked disconnected terms for order < 2"]

/-- `vecc_operations` (code_dt_equations.py 400-416, 423-439) -/
def ccLines (opt : Bool) (order : Nat) (calls : Bool × Bool) : List String :=
  (if calls.1 then [subtractLine .linked opt order] else []) ++
    if calls.2 then [subtractLine .unlinked opt order] else [tabs 2 ++ "pass  # no un-linked disconnected terms for order < 4"]

/-- the text of `_write_dt_amplitude_strings` (code_dt_equations.py 343-461); it begins with an empty line -/
def DtFunction.lines (opt : Bool) (f : DtFunction) : List String :=
  [""] ++ dtHead opt f.order ++
  [tabs 1 ++ "# unpack the `w_args`", tabs 1 ++ ", ".intercalate (f.unpacked.map wString ++ ["*unusedargs"]) ++ " = w_args",
    tabs 1 ++ "# Calculate the " ++ (numTags[f.order]?).getD "" ++ " order residual",
    tabs 1 ++ "residual = residual_equations.calculate_order_" ++ toString f.order ++ "_residual(A, N, trunc, h_args, w_args)",
    tabs 1 ++ "# subtract the epsilon term (which is R_0)", tabs 1 ++ "residual -= " ++ epsilonTerm opt f, "", tabs 1 ++ "# subtract the disconnected terms",
    tabs 1 ++ "if ansatz.VECI:", tabs 2 ++ "pass  # veci does not include any disconnected terms", tabs 1 ++ "elif ansatz.VE_MIXED:"] ++
  mixedLines opt f.order f.ifMixed ++ [tabs 1 ++ "elif ansatz.VECC:"] ++ ccLines opt f.order f.ifCC ++
  ["", tabs 1 ++ "# Symmetrize the residual operator",
    tabs 1 ++ "d" ++ tString f.order ++ " = symmetrize_tensor(N, residual, order=" ++ toString f.sym ++ ")", tabs 1 ++ "return d" ++ tString f.order]

/-! ## The functions that are called from outside -/

/-- the text of `_write_master_dt_amplitude_function` (code_dt_equations.py 464-511); it begins with an empty line -/
def solverLines (opt : Bool) (order flag : Nat) : List String :=
  ["", "def solve_" ++ (orderTags[flag]?).getD "" ++ "_equations" ++ optSuffix opt ++ "(A, N, ansatz, trunc, epsilon, h_args, t_args, dt_args, w_args" ++
      (if opt then ", opt_path_list" else "") ++ "):",
    tabs 1 ++ "\"\"\"Compute the change in the " ++ tString order ++ " term (" ++ (orderTags[flag]?).getD "" ++ ")\"\"\"", "",
    tabs 1 ++ "if not trunc." ++ (orderTags[flag]?).getD "" ++ ":", tabs 2 ++ "raise Exception(",
    tabs 3 ++ "\"It appears that " ++ (orderTags[flag]?).getD "" ++ " is not true, this cannot be.\"", tabs 3 ++ "\"Something went terribly wrong!!!\"", tabs 2 ++ ")"] ++
  (if opt then
    ["", tabs 1 ++ "# unpack the opt_einsum path's", tabs 1 ++ "opt_epsilon_path_list, opt_linked_path_list, opt_unlinked_path_list = opt_path_list", "",
      tabs 1 ++ dtString order ++ " = " ++ dtFnName opt order ++ "(", tabs 2 ++ "A, N, ansatz, trunc, epsilon, h_args, t_args, dt_args, w_args,",
      tabs 2 ++ "opt_epsilon_path_list[" ++ toString (order - 1) ++ "], opt_linked_path_list[" ++ toString (order - 1) ++ "], opt_unlinked_path_list[" ++
        toString (order - 1) ++ "]", tabs 1 ++ ")"]
  else [tabs 1 ++ dtString order ++ " = " ++ dtFnName opt order ++ "(A, N, ansatz, trunc, epsilon, h_args, t_args, dt_args, w_args)"]) ++
  [tabs 1 ++ "return " ++ dtString order]

/-! ## The optimised paths -/

/-- `_write_optimized_master_paths_function` (code_dt_equations.py 563-579) -/
def masterPathsLines : List String :=
  ["", "def compute_optimized_paths(A, N, truncation):", tabs 1 ++ "\"\"\"Calculate all optimized paths for the `opt_einsum` calls.\"\"\"", "",
    tabs 1 ++ "epsilon_opt_paths = compute_optimized_epsilon_paths(A, N, truncation)",
    tabs 1 ++ "linked_opt_paths = compute_optimized_linked_paths(A, N, truncation)",
    tabs 1 ++ "unlinked_opt_paths = compute_optimized_unlinked_paths(A, N, truncation)", "",
    tabs 1 ++ "all_opt_paths = [epsilon_opt_paths, linked_opt_paths, unlinked_opt_paths]", "", tabs 1 ++ "return all_opt_paths"]

/-- the shape of an array (code_dt_equations.py 515-517) -/
def shapeText (n : Nat) : String := "(" ++ ", ".intercalate ("A" :: "A" :: List.replicate n "N") ++ ")"

/-- one order (code_dt_equations.py 598-620) -/
def epsilonBlock (x : Nat × Path) : List String :=
  [tabs 1 ++ "if truncation." ++ (orderTags[x.1]?).getD "" ++ ":",
    tabs 2 ++ "epsilon_path_list.append(oe.contract_expression('" ++ ",".intercalate (x.2.subs.map String.ofList) ++ "->" ++ String.ofList x.2.out ++ "', " ++
      ", ".intercalate (x.2.shapes.map shapeText) ++ "))", ""]

/-- the text of `_write_optimized_epsilon_paths_function` (code_dt_equations.py 582-624) -/
def epsilonLines (l : List (Nat × Path)) : List String :=
  ["", "def compute_optimized_epsilon_paths(A, N, truncation):",
    tabs 1 ++ "\"\"\"Calculate optimized paths for the constant/epsilon einsum calls up to `highest_order`.\"\"\"", "", tabs 1 ++ "epsilon_path_list = []", ""] ++
  l.flatMap epsilonBlock ++ [tabs 1 ++ "return epsilon_path_list"]

/-- the first lines (code_dt_equations.py 632-639, 682-689) -/
def sidePathsHead (side : Side) : List String :=
  ["", "def compute_optimized_" ++ (match side with | .linked => "linked" | .unlinked => "unlinked") ++ "_paths(A, N, truncation):",
    tabs 1 ++ "\"\"\"Calculate optimized paths for the " ++ (match side with | .linked => "linked" | .unlinked => "unlinked") ++
      "-disconnected einsum calls up to `highest_order`.\"\"\"", "",
    tabs 1 ++ "order_1_list, order_2_list, order_3_list = [], [], []", tabs 1 ++ "order_4_list, order_5_list, order_6_list = [], [], []", ""]

/-- the condition without which nothing is computed (code_dt_equations.py 694-700) -/
def sideGuard : Option Nat → List String
  | none => []
  | some g => [tabs 1 ++ "if not truncation." ++ (orderTags[g]?).getD "" ++ ":",
      tabs 2 ++ "log.warning('Did not calculate optimized unlinked paths of the dt amplitudes')", tabs 2 ++ "return [[], [], [], [], [], []]", ""]

/-- the text of `_write_optimized_linked_paths_function` (code_dt_equations.py 627-674) and `_write_optimized_unlinked_paths_function` (677-733) -/
def sidePathsLines (side : Side) (p : PathsFunction) : List String :=
  sidePathsHead side ++ sideGuard p.guard ++ ((p.lists.zipIdx 1).flatMap fun x => x.1.flatMap (pathsBlock x.2)) ++
  [tabs 1 ++ "return [" ++ ", ".intercalate ((range2 1 (p.lists.length + 1)).map fun i => "order_" ++ toString i ++ "_list") ++ "]"]

/-! ## The file -/

/-- `generate_dt_amplitude_string` (code_dt_equations.py 737-805) -/
def DtModule.lines (m : DtModule) : List String :=
  [spacingLine, namedLine "DEFAULT FUNCTIONS" 28, spacingLine, "", namedLine "DISCONNECTED TERMS" 28] ++
  numbered (Disconnected.lines DEinsum.render .linked false) m.linked ++ numbered (Disconnected.lines DEinsum.render .unlinked false) m.unlinked ++
  ["", namedLine "dt AMPLITUDES" 28] ++ m.fns.flatMap (DtFunction.lines false) ++ ["", namedLine "WRAPPER FUNCTIONS" 28] ++
  numbered (solverLines false) m.solvers ++ ["", spacingLine, namedLine "OPTIMIZED FUNCTIONS" 27, spacingLine, "", namedLine "DISCONNECTED TERMS" 28] ++
  numbered (Disconnected.lines DCall.render .linked true) m.linkedOpt ++ numbered (Disconnected.lines DCall.render .unlinked true) m.unlinkedOpt ++
  ["", namedLine "dt AMPLITUDES" 28] ++ m.fnsOpt.flatMap (DtFunction.lines true) ++ ["", namedLine "WRAPPER FUNCTIONS" 28] ++
  numbered (solverLines true) m.solversOpt ++ ["", namedLine "OPTIMIZED PATHS FUNCTION" 28] ++ masterPathsLines ++ [""] ++ epsilonLines m.epsilonPaths ++ [""] ++
  sidePathsLines .linked m.linkedPaths ++ [""] ++ sidePathsLines .unlinked m.unlinkedPaths ++ [""]

/-- `dt_equations_import_statements` (code_import_statements_module.py 44-57) -/
def importLines : List String :=
  ["# system imports", "from math import factorial", "", "# third party imports", "import numpy as np", "import opt_einsum as oe", "", "# local imports",
    "from ..log_conf import log", "from .symmetrize import symmetrize_tensor", "from . import residual_equations", ""]

/-- `generate_dt_amplitude_equations_file` (code_dt_equations.py 808-822): the text written to the file -/
def fileText (maxOrder : Nat) : Except PyErr (List Char) :=
  (dtModule maxOrder).map fun m => (importLines ++ m.lines).flatMap fun s => s.toList ++ ['\n']

end TF.Dt
