import Verif.Model.FullCC.Module
import Verif.Model.ETPython

/-!
# Model of the text written by `generate_full_cc_python` (code_full_cc.py 1286-1303)

The text is a function of the generated programs (`pythonFile`, Model/FullCC/Python.lean).  A function of
the module is a list of lines (`func_string.splitlines()` without the indentation of the source), joined by
line breaks.
-/

namespace TF.CC

open TF.Py
open TF.ETPy (showOp namedLine spacedNamedLine)

/-- `line[tab_length*3:].rstrip()` of a line in the scope of an `if` of a function (code_full_cc.py 722, 1126):
an empty line stays empty -/
def scopeLine (s : String) : String := if s = "" then "" else tabs 2 ++ s

/-- the `else` branch of the generated functions (code_full_cc.py 666, 1102, 711-712) -/
def raiseLine : String :=
  tabs 2 ++ "raise NotImplementedError('Hot Band amplitudes not implemented properly and have not been theoretically verified!')"

/-- `optnames` (code_full_cc.py 670) -/
def optNames : List String := ["connected", "linked", "unlinked"]

/-- the default version of a function of `_generate_full_cc_compute_functions` (code_full_cc.py 676-725) -/
def addText (o : Op) (ty : String) (p : Program Einsum) : String :=
  "\n".intercalate (["", "def " ++ addName o ty ++ "(R, ansatz, truncation, h_args, t_args):",
    tabs 1 ++ "\"\"\"" ++ ("Calculate the " ++ showOp o ++ " " ++ ty ++ " terms.") ++ "\"\"\"", "", tabs 1 ++ "if ansatz.ground_state:"] ++
    (p.lines accumulate Einsum.render).map scopeLine ++ [tabs 1 ++ "else:", raiseLine, tabs 1 ++ "return", ""]) ++ "\n"

/-- the optimised version (code_full_cc.py 676-725); `nm` is the entry of `optnames` -/
def addOptText (o : Op) (ty nm : String) (p : Program OptCall) : String :=
  "\n".intercalate (["", "def " ++ addOptName o ty ++ "(R, ansatz, truncation, h_args, t_args, opt_" ++ nm ++ "_path_list):",
    tabs 1 ++ "\"\"\"" ++ ("Optimized calculation of the " ++ showOp o ++ " " ++ ty ++ " terms.") ++ "\"\"\"", "",
    tabs 1 ++ "# make an iterable out of the `opt_" ++ nm ++ "_path_list`",
    tabs 1 ++ "optimized_einsum = iter(opt_" ++ nm ++ "_path_list)", "", tabs 1 ++ "if ansatz.ground_state:"] ++
    (p.lines accumulate OptCall.render).map scopeLine ++ [tabs 1 ++ "else:", raiseLine, tabs 1 ++ "return", ""]) ++ "\n"

/-- a function of `_generate_optimized_paths_functions` (code_full_cc.py 1104-1132) -/
def typePathsText (o : Op) (ty : String) (p : Program Path) : String :=
  "\n".intercalate (["", "def " ++ typePathsName o ty ++ "(A, N, ansatz, truncation):",
    tabs 1 ++ "\"\"\"" ++ ("Calculate optimized einsum paths for the " ++ ty ++ " terms.") ++ "\"\"\"", "",
    tabs 1 ++ ty ++ "_opt_path_list = []", "", tabs 1 ++ "if ansatz.ground_state:"] ++
    (p.lines (extendList (ty ++ "_opt_path_list")) Path.render).map scopeLine ++
    [tabs 1 ++ "else:", raiseLine, "", tabs 1 ++ "return " ++ ty ++ "_opt_path_list", ""]) ++ "\n"

/-- `np.zeros(shape=(A, A, N, ..), dtype=complex)` (code_full_cc.py 758, 773) -/
def zerosText (r : Nat) : String :=
  "np.zeros(shape=(" ++ ", ".intercalate ("A" :: "A" :: List.replicate r "N") ++ "), dtype=complex)"

/-- `_write_master_full_cc_compute_function` (code_full_cc.py 746-792), default -/
def amplitudeText (o : Op) : String :=
  "\n".intercalate (["", "def compute_" ++ specifier o ++ "_amplitude(A, N, ansatz, truncation, h_args, t_args):",
    tabs 1 ++ "\"\"\"" ++ ("Compute the " ++ showOp o ++ " amplitude.") ++ "\"\"\"",
    tabs 1 ++ "truncation.confirm_at_least_singles()", "", tabs 1 ++ "# the residual tensor",
    tabs 1 ++ "R = " ++ zerosText o.rank, "", tabs 1 ++ "# add each of the terms"] ++
    (termTypes.map fun ty => tabs 1 ++ addName o ty ++ "(R, ansatz, truncation, h_args, t_args)") ++
    [tabs 1 ++ "return R", "", ""])

/-- `_write_master_full_cc_compute_function` (code_full_cc.py 746-792), optimised -/
def amplitudeOptText (o : Op) : String :=
  "\n".intercalate (["", "def compute_" ++ specifier o ++ "_amplitude_optimized(A, N, ansatz, truncation, h_args, t_args, opt_path_lists):",
    tabs 1 ++ "\"\"\"" ++ ("Compute the " ++ showOp o ++ " amplitude.") ++ "\"\"\"",
    tabs 1 ++ "truncation.confirm_at_least_singles()", "", tabs 1 ++ "# the residual tensor",
    tabs 1 ++ "R = " ++ zerosText o.rank, "", tabs 1 ++ "# unpack the optimized paths",
    tabs 1 ++ "opt_connected_path_list, opt_linked_path_list, opt_unlinked_path_list = opt_path_lists[(" ++ toString o.m ++ ", " ++
      toString o.n ++ ")]", "", tabs 1 ++ "# add each of the terms"] ++
    (List.zipWith (fun ty nm => tabs 1 ++ addOptName o ty ++ "(R, ansatz, truncation, h_args, t_args, opt_" ++ nm ++ "_path_list)")
      termTypes optNames) ++ [tabs 1 ++ "return R", "", ""])

/-- `_write_grouped_optimized_paths_function` (code_full_cc.py 1152-1183) -/
def opPathsText (o : Op) : String :=
  "\n".intercalate (["", "def compute_" ++ specifier o ++ "_optimized_paths(A, N, ansatz, truncation):",
    tabs 1 ++ "\"\"\"" ++ ("Compute the optimized paths for this " ++ showOp o ++ ".") ++ "\"\"\"",
    tabs 1 ++ "truncation.confirm_at_least_singles()", ""] ++
    (List.zipWith (fun ty nm => tabs 1 ++ nm ++ "_opt_path_list = " ++ typePathsName o ty ++ "(A, N, ansatz, truncation)")
      termTypes optNames) ++
    ["", tabs 1 ++ "return_dict = {",
     tabs 2 ++ "(" ++ toString o.m ++ ", " ++ toString o.n ++ "): [connected_opt_path_list, linked_opt_path_list, unlinked_opt_path_list]",
     tabs 1 ++ "}", "", tabs 1 ++ "return return_dict", "", ""])

/-- `_write_optimized_master_paths_function` (code_full_cc.py 1185-1214); `maximum_rank` of the projection
operators is the CC truncation (latex_full_cc.py 79) -/
def allPathsText (cc : Nat) (os : List Op) : String :=
  "\n".intercalate (["", "def compute_all_optimized_paths(A, N, ansatz, truncation):",
    tabs 1 ++ "\"\"\"Return dictionary containing optimized contraction paths.",
    tabs 1 ++ "Calculates all optimized paths for the `opt_einsum` calls up to",
    tabs 2 ++ "a maximum order of m+n=" ++ toString cc ++ " for a projection operator P^m_n",
    tabs 1 ++ "\"\"\"", tabs 1 ++ "all_opt_path_lists = []", ""] ++
    (os.map fun o =>
      let key := "[(" ++ toString o.m ++ ", " ++ toString o.n ++ ")]"
      tabs 1 ++ "all_opt_path_lists" ++ key ++ " = compute_m" ++ toString o.m ++ "_n" ++ toString o.n ++
        "_optimized_paths(A, N, ansatz, truncation)" ++ key) ++
    ["", tabs 1 ++ "return all_opt_path_lists", "", ""])

/-- `_wrap_full_cc_generation` (code_full_cc.py 728-743) and `_wrap_optimized_paths_generation` (1135-1149):
`operator_list[i-1]` is the last operator for `i = 0`.  `title` and `w` are the text and the width of the
headers, `fns` the functions of one operator. -/
def wrapText (title label : String) (w : Nat) (fns : OmegaCode → List String) (F : List OmegaCode) : String :=
  String.join ((F.zip (Zhz.previous (F.map OmegaCode.omega))).map fun p =>
    let o := p.1.omega
    (if o.rank > p.2.rank then
      spacedNamedLine ("RANK " ++ (if o.rank < 10 then " " else "") ++ toString o.rank ++ " " ++ title) w 75 ++ "\n"
      else "") ++
    "\n" ++ namedLine (showOp o ++ " " ++ label) (w / 2) ++ String.join (fns p.1))

/-- the functions of one projection operator -/
def addTexts (c : OmegaCode) : List String := List.zipWith (addText c.omega) termTypes c.default
def addOptTexts (c : OmegaCode) : List String :=
  List.zipWith (fun x p => addOptText c.omega x.1 x.2 p) (termTypes.zip optNames) c.opt
def typePathsTexts (c : OmegaCode) : List String := List.zipWith (typePathsText c.omega) termTypes c.paths

/-- `generate_full_cc_python` (code_full_cc.py 1286-1303) and `_generate_full_cc_python_file_contents`
(1218-1284): the text written to the file -/
def fileText (cc : Nat) (F : List OmegaCode) : String :=
  let os := F.map OmegaCode.omega
  ETPy.importStatements ++
  spacedNamedLine "DEFAULT FUNCTIONS" 45 109 ++ ("\n" ++ namedLine "INDIVIDUAL TERMS" 45 ++ "\n\n") ++ wrapText "FUNCTIONS" "TERMS" 28 addTexts F ++
    ("\n" ++ namedLine "RESIDUAL FUNCTIONS" 45) ++ String.join (os.map amplitudeText) ++
  spacedNamedLine "OPTIMIZED FUNCTIONS" 44 109 ++ ("\n" ++ namedLine "INDIVIDUAL TERMS" 45 ++ "\n\n") ++ wrapText "FUNCTIONS" "TERMS" 28 addOptTexts F ++
    ("\n" ++ namedLine "RESIDUAL FUNCTIONS" 45) ++ String.join (os.map amplitudeOptText) ++
  spacedNamedLine "OPTIMIZED PATHS FUNCTIONS" 41 109 ++ ("\n" ++ namedLine "INDIVIDUAL OPTIMIZED PATHS" 41 ++ "\n\n") ++
    wrapText "OPTIMIZED PATHS" "OPTIMIZED PATHS" 25 typePathsTexts F ++
    ("\n" ++ namedLine "GROUPED BY PROJECTION OPERATOR" 41) ++ String.join (os.map opPathsText) ++
  ("\n" ++ namedLine "MASTER OPTIMIZED PATH FUNCTION" 41) ++ allPathsText cc os ++ "\n"

end TF.CC
