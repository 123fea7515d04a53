import Verif.Model.W
import Verif.Model.FullCC.Python

/-!
# The text of the generated W module (`termfactory/code_w_equations.py`)

The text is represented by its lines.
-/

namespace TF.W

open TF.Py
open TF.CC (tabs)

/-! ## Contributions -/

/-- the two kinds of contributions -/
inductive Kind
  | vemx
  | vecc
  deriving DecidableEq, Repr

def Kind.name : Kind → String
  | .vemx => "vemx"
  | .vecc => "vecc"

/-- the suffix of the optimised functions -/
def optSuffix (opt : Bool) : String := if opt then "_optimized" else ""

/-- `t_i, t_ij, .., *unusedargs = t_args` (code_w_equations.py 280, 406, 531) -/
def unpackLine (ns : List Nat) : String := tabs 1 ++ ", ".intercalate (ns.map tString ++ ["*unusedargs"]) ++ " = t_args"

/-- the first line of a function (code_w_equations.py 286, 295, 412, 421) -/
def contributionsHead (kind : Kind) (opt : Bool) (order : Nat) : String :=
  "def _add_order_" ++ toString order ++ "_" ++ kind.name ++ "_contributions" ++ optSuffix opt ++ "(W_" ++ toString order ++ ", t_args, truncation" ++
    (if opt then ", opt_path_list" else "") ++ "):"

/-- the docstring (code_w_equations.py 287-289, 296-299, 413-415, 422-425) -/
def contributionsDoc (kind : Kind) (opt : Bool) (order : Nat) : List String :=
  [tabs 1 ++ "\"\"\"Calculate the order " ++ toString order ++ (match kind with | .vemx => " VECI/CC (mixed)" | .vecc => " VECC") ++ " contributions to the W operator",
    tabs 1 ++ (if kind = .vecc ∧ opt = true then "\"for use in the calculation of the residuals." else "for use in the calculation of the residuals.")] ++
  (if opt then [tabs 1 ++ "Uses optimized summation paths generate using `contract_expression` from the `opt_einsum` library."] else []) ++ [tabs 1 ++ "\"\"\""]

/-- the body of the functions that only raise (code_w_equations.py 324-333, 450-459) -/
def raiseLines : Kind → List String
  | .vemx =>
    [tabs 1 ++ "\"\"\"Exists for error checking.\"\"\"", tabs 1 ++ "raise Exception(", tabs 2 ++ "\"the first possible purely VECI/CC term is (1, 1) or (dt_i * t_i)\"",
      tabs 2 ++ "\"which requires a W operator of at least 2nd order\"", tabs 1 ++ ")"]
  | .vecc =>
    [tabs 1 ++ "\"\"\"Exists for error checking.\"\"\"", tabs 1 ++ "raise Exception(", tabs 2 ++ "\"the first possible purely VECC term is (2, 2) or (dt_ij * t_ij)\"",
      tabs 2 ++ "\"which requires a W operator of at least 4th order\"", tabs 1 ++ ")"]

/-- the name of the highest amplitude of a contribution -/
def blockName {ι : Type} (b : WBlock ι) : String := (orderTags[b.gate.getD 1]?).getD ""

/-- the sum in brackets: on one line for the partition of ones, otherwise one line for each summand (code_w_equations.py 372-384, 497-509; `len(partition) == order`
holds for the partition of ones only, which is the one without a condition) -/
def sumLines {ι : Type} (r : ι → String) (k : Nat) (start : String) (gate : Option Nat) (items : List ι) : List String :=
  match gate with
  | none => [tabs k ++ start ++ "(" ++ " + ".intercalate (items.map r) ++ ")"]
  | some _ => [tabs k ++ start ++ "("] ++ (items.dropLast.map fun c => tabs (k + 1) ++ r c ++ " +") ++
      (items.getLast?.toList.map fun c => tabs (k + 1) ++ r c) ++ [tabs k ++ ")"]

/-- the statement of a contribution (code_w_equations.py 356-384, 481-509), indented once more under a condition (386-390, 511-515) -/
def addLines {ι : Type} (r : ι → String) (order k : Nat) (b : WBlock ι) : List String :=
  match b.direct with
  | some n => [tabs k ++ "W_" ++ toString order ++ " += " ++ renderPref b.pref ++ " * " ++ tString n]
  | none => sumLines r k ("W_" ++ toString order ++ " += " ++ renderPref b.pref ++ " * ") b.gate b.items

/-- one contribution (code_w_equations.py 337-391, 463-516) -/
def WBlock.lines {ι : Type} (r : ι → String) (order : Nat) (b : WBlock ι) : List String :=
  (tabs 1 ++ "# " ++ (blockName b).toUpper ++ " contribution") ::
  match b.gate with
  | none => addLines r order 1 b
  | some _ => (tabs 1 ++ "if truncation." ++ blockName b ++ ":") :: addLines r order 2 b

/-- the text of `_generate_vemx_contributions` (code_w_equations.py 273-395) and `_generate_vecc_contributions` (399-520); it begins with an empty line -/
def contributionLines {ι : Type} (r : ι → String) (kind : Kind) (opt : Bool) (order : Nat) (c : WContributions ι) : List String :=
  ["", contributionsHead kind opt order] ++
  match c.blocks with
  | none => raiseLines kind
  | some bs => contributionsDoc kind opt order ++ [tabs 1 ++ "# unpack the `t_args`", unpackLine c.unpacked] ++
      (if opt then [tabs 1 ++ "# make an iterable out of the `opt_path_list`", tabs 1 ++ "optimized_einsum = iter(opt_path_list)"] else []) ++
      bs.flatMap (WBlock.lines r order) ++ [tabs 1 ++ "return"]

/-! ## The W function of one order -/

/-- `num_tag` (code_w_equations.py 180) -/
def numTags : List String := ["zero", "1st", "2nd", "3rd", "4th", "5th", "6th", "7th", "8th"]

/-- the call of a function that adds contributions (code_w_equations.py 599-614) -/
def callLine (kind : Kind) (opt : Bool) (order : Nat) : String :=
  tabs 2 ++ "_add_order_" ++ toString order ++ "_" ++ kind.name ++ "_contributions" ++ optSuffix opt ++ "(W_" ++ toString order ++ ", t_args, truncation" ++
    (if opt then ", " ++ kind.name ++ "_opt_path_list" else "") ++ ")"

/-- the calls under a condition (code_w_equations.py 595-614): the function of the order is called or there is none -/
def callLines (opt : Bool) (order : Nat) (calls : Bool × Bool) (note : Bool) : List String :=
  (if calls.1 then [callLine .vemx opt order] else []) ++ (if calls.2 then [callLine .vecc opt order] else if note then [tabs 2 ++ "pass  # no VECC contributions for order < 4"] else [])

/-- the first line and the docstring (code_w_equations.py 533-551) -/
def wHead (opt : Bool) (order : Nat) : List String :=
  if opt then
    ["def _calculate_order_" ++ toString order ++ "_w_operator_optimized(A, N, t_args, ansatz, truncation, vemx_opt_path_list, vecc_opt_path_list):",
      tabs 1 ++ "\"\"\"Calculate the order " ++ toString order ++ " W operator for use in the calculation of the residuals.",
      tabs 1 ++ "Uses optimized summation paths generate using `contract_expression` from the `opt_einsum` library.", tabs 1 ++ "\"\"\""]
  else
    ["def _calculate_order_" ++ toString order ++ "_w_operator(A, N, t_args, ansatz, truncation):",
      tabs 1 ++ "\"\"\"Calculate the order " ++ toString order ++ " W operator for use in the calculation of the residuals.\"\"\""]

/-- the text of `_write_w_function_strings` (code_w_equations.py 554-633); it begins with an empty line -/
def WFunction.lines (opt : Bool) (f : WFunction) : List String :=
  [""] ++ wHead opt f.order ++
  [tabs 1 ++ "# unpack the `t_args`", unpackLine f.unpacked, tabs 1 ++ "# Creating the " ++ (numTags[f.order]?).getD "" ++ " order W operator",
    tabs 1 ++ "W_" ++ toString f.order ++ " = np.zeros((" ++ ", ".intercalate ("A" :: "A" :: List.replicate f.order "N") ++ "), dtype=complex)"] ++
  match f.veciGate, f.sym with
  | some g, some s =>
    ["", tabs 1 ++ "# add the VECI contribution", tabs 1 ++ "if truncation." ++ (orderTags[g]?).getD "" ++ ":",
      tabs 2 ++ "W_" ++ toString f.order ++ " += " ++ renderPref f.veciPref ++ " * " ++ tString f.veci, tabs 1 ++ "if ansatz.VE_MIXED:"] ++
    callLines opt f.order f.ifMixed false ++ [tabs 1 ++ "elif ansatz.VECC:"] ++ callLines opt f.order f.ifCC true ++
    ["", tabs 1 ++ "# Symmetrize the W operator", tabs 1 ++ "symmetric_w = symmetrize_tensor(N, W_" ++ toString f.order ++ ", order=" ++ toString s ++ ")",
      tabs 1 ++ "return symmetric_w"]
  | _, _ => [tabs 1 ++ "# Singles contribution", tabs 1 ++ "W_" ++ toString f.order ++ " += " ++ tString f.veci, tabs 1 ++ "return W_" ++ toString f.order]

/-! ## The function that is called from outside -/

/-- `function_string.format(..)` (code_w_equations.py 643, 681-685) -/
def orderCall (opt : Bool) (k : Nat) : String :=
  "w_" ++ toString k ++ " = _calculate_order_" ++ toString k ++ "_w_operator" ++
    (if opt then "_optimized(A, N, t_args, ansatz, truncation, vemx_optimized_paths[" ++ toString (k - 1) ++ "], vecc_optimized_paths[" ++ toString (k - 1) ++ "])"
      else "(A, N, t_args, ansatz, truncation)")

/-- `w_1, .., w_k, None, ..` (code_w_equations.py 661-673, 703-715): always six entries -/
def returnLine (k : Nat) : String :=
  tabs 2 ++ "return " ++ ", ".intercalate (((List.range k).map fun i => "w_" ++ toString (i + 1)) ++ List.replicate (6 - k) "None")

/-- one flag after the other (code_w_equations.py 660-678, 702-720): the orders so far are returned when it is not set -/
def masterSteps (opt : Bool) : List (Nat × Nat) → Nat → Nat → List String
  | [], last, unsupported =>
    [tabs 1 ++ "if not truncation." ++ (orderTags[unsupported]?).getD "" ++ ":", returnLine last, tabs 1 ++ "else:", tabs 2 ++ "raise NotImplementedError(",
      tabs 3 ++ "\"Attempting to calculate W^" ++ toString (last + 1) ++ " operator (" ++ (orderTags[unsupported]?).getD "" ++ ")\\n\"",
      tabs 3 ++ "\"This is currently not implemented!!\\n\"", tabs 2 ++ ")"]
  | (g, k) :: l, last, unsupported =>
    [tabs 1 ++ "if not truncation." ++ (orderTags[g]?).getD "" ++ ":", returnLine last, tabs 1 ++ "else:", tabs 2 ++ orderCall opt k, ""] ++
      masterSteps opt l k unsupported

/-- the text of `_write_master_w_compute_function` (code_w_equations.py 637-734): an empty line, the function and the indentation of the last line of the block of text -/
def Master.lines (opt : Bool) (m : Master) : List String :=
  ["", if opt then "def compute_w_operators_optimized(A, N, t_args, ansatz, truncation, vemx_optimized_paths, vecc_optimized_paths):"
      else "def compute_w_operators(A, N, t_args, ansatz, truncation):",
    tabs 1 ++ "\"\"\"Compute a number of W operators depending on the level of truncation.\"\"\"", "",
    tabs 1 ++ "if not truncation." ++ (orderTags[m.required]?).getD "" ++ ":", tabs 2 ++ "raise Exception(",
    tabs 3 ++ "\"It appears that `" ++ (orderTags[m.required]?).getD "" ++ "` is not true, this cannot be.\\n\"",
    tabs 3 ++ "\"Something went terribly wrong!!!\\n\\n\"", tabs 3 ++ "f\"{truncation}\\n\"", tabs 2 ++ ")", ""] ++
  (m.first.map fun k => tabs 1 ++ orderCall opt k) ++ [""] ++ masterSteps opt m.steps m.first.length m.unsupported ++ [""]

/-! ## The optimised paths -/

/-- one call with its comma (code_w_equations.py 779, 822-824) -/
def pathLine (p : Path) : String :=
  tabs 3 ++ "oe.contract_expression('" ++ ", ".intercalate (p.subs.map String.ofList) ++ "->" ++ String.ofList p.out ++ "', " ++
    ", ".intercalate (p.shapes.map fun n => "(" ++ ", ".intercalate ("A" :: "A" :: List.replicate n "N") ++ ")") ++ "),"

/-- one condition (code_w_equations.py 826-834, 883-889) -/
def pathsBlock (order : Nat) (b : Nat × List Path) : List String :=
  [tabs 1 ++ "if truncation." ++ (orderTags[b.1]?).getD "" ++ ":", tabs 2 ++ "order_" ++ toString order ++ "_list.extend(["] ++ b.2.map pathLine ++ [tabs 2 ++ "])", ""]

/-- the lists that are filled and returned: those from this index on -/
def Kind.firstList : Kind → Nat
  | .vemx => 1
  | .vecc => 3

/-- the first lines (code_w_equations.py 794-801, 851-857) -/
def pathsHead : Kind → List String
  | .vemx =>
    ["", "def compute_optimized_vemx_paths(A, N, truncation):",
      tabs 1 ++ "\"\"\"Calculate optimized paths for the VECI/CC (mixed) einsum calls up to `highest_order`.\"\"\"", "",
      tabs 1 ++ "order_2_list, order_3_list = [], []", tabs 1 ++ "order_4_list, order_5_list, order_6_list = [], [], []", ""]
  | .vecc =>
    ["", "def compute_optimized_vecc_paths(A, N, truncation):",
      tabs 1 ++ "\"\"\"Calculate optimized paths for the VECC einsum calls up to `highest_order`.\"\"\"", "",
      tabs 1 ++ "order_4_list, order_5_list, order_6_list = [], [], []", ""]

/-- the condition without which nothing is computed (code_w_equations.py 863-868) -/
def guardLines : Option Nat → List String
  | none => []
  | some g => [tabs 1 ++ "if not truncation." ++ (orderTags[g]?).getD "" ++ ":",
      tabs 2 ++ "log.warning('Did not calculate optimized VECC paths of the dt amplitudes')", tabs 2 ++ "return [[], [], [], [], [], []]", ""]

/-- `order_k_list` for the lists that are filled -/
def listNames (kind : Kind) (p : PathsFunction) : List String :=
  List.replicate kind.firstList "[]" ++ (range2 kind.firstList p.lists.length).map fun i => "order_" ++ toString (i + 1) ++ "_list"

/-- the text of `_write_optimized_vemx_paths_function` (code_w_equations.py 786-840) and `_write_optimized_vecc_paths_function` (843-897) -/
def PathsFunction.lines (kind : Kind) (p : PathsFunction) : List String :=
  pathsHead kind ++ guardLines p.guard ++
  ((range2 kind.firstList p.lists.length).flatMap fun i => ((p.lists[i]?).getD []).flatMap (pathsBlock (i + 1))) ++
  ["", tabs 1 ++ "return [" ++ ", ".intercalate (listNames kind p) ++ "]"]

/-! ## The file -/

/-- `spacing_line` (code_w_equations.py 906) -/
def spacingLine : String := "# " ++ String.ofList (List.replicate 75 '-') ++ " #"

/-- `named_line` (code_w_equations.py 908-910) -/
def namedLine (name : String) (width : Nat) : String :=
  "# " ++ String.ofList (List.replicate width '-') ++ " " ++ name ++ " " ++ String.ofList (List.replicate width '-') ++ " #"

/-- the functions of consecutive orders, from order 1 on -/
def numbered {α : Type} (f : Nat → α → List String) (l : List α) : List String := (l.zipIdx 1).flatMap fun x => f x.2 x.1

/-- `generate_w_operators_string` (code_w_equations.py 901-966) -/
def WModule.lines (m : WModule) : List String :=
  [spacingLine, namedLine "DEFAULT FUNCTIONS" 28, spacingLine, "", namedLine "VECI/CC CONTRIBUTIONS" 28] ++
  numbered (contributionLines Einsum.render .vemx false) m.vemx ++ ["", namedLine "VECC CONTRIBUTIONS" 28] ++
  numbered (contributionLines Einsum.render .vecc false) m.vecc ++ ["", namedLine "W OPERATOR FUNCTIONS" 28] ++
  m.fns.flatMap (WFunction.lines false) ++ m.master.lines false ++
  [spacingLine, namedLine "OPTIMIZED FUNCTIONS" 27, spacingLine, "", namedLine "VECI/CC CONTRIBUTIONS" 28] ++
  numbered (contributionLines Call.render .vemx true) m.vemxOpt ++ ["", namedLine "VECC CONTRIBUTIONS" 28] ++
  numbered (contributionLines Call.render .vecc true) m.veccOpt ++ ["", namedLine "W OPERATOR FUNCTIONS" 28] ++
  m.fnsOpt.flatMap (WFunction.lines true) ++ m.masterOpt.lines true ++
  ["", namedLine "OPTIMIZED PATHS FUNCTION" 28] ++ m.vemxPaths.lines .vemx ++ [""] ++ m.veccPaths.lines .vecc ++ [""]

/-- `w_equations_import_statements` (code_import_statements_module.py 75-87) -/
def importLines : List String :=
  ["# system imports", "from math import factorial", "", "# third party imports", "import numpy as np", "import opt_einsum as oe", "", "# local imports",
    "from .symmetrize import symmetrize_tensor", "from ..log_conf import log", ""]

/-- `generate_w_operator_equations_file` (code_w_equations.py 969-982): the text written to the file. -/
def fileText (maxOrder : Nat) : Except PyErr (List Char) :=
  (wModule maxOrder).map fun m => (importLines ++ m.lines).flatMap fun s => s.toList ++ ['\n']

end TF.W
