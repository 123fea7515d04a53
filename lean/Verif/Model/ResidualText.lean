import Verif.Model.Residual
import Verif.Model.FullCC.Python

/-!
# The text of the generated residual module (`termfactory/code_residual_equations.py`)

The text is represented by its lines.
-/

namespace TF.Residual

open TF.Py
open TF.CC (tabs)
open TF.W (orderTags modeTags)

/-- the prefactor as `generate_p_term` returns it (code_residual_equations.py 227-243) -/
def PTerm.render : PTerm → String
  | .one => "1.0"
  | .half => "0.5"
  | .frac a b => "(" ++ toString a ++ "/" ++ toString b ++ ")"
  | .twice a b => "(" ++ toString a ++ "/(2*" ++ toString b ++ "))"

/-- the names in `h_dict` (code_residual_equations.py 325-332) -/
def hString (k : Nat × Nat) : String :=
  if k = (0, 0) then "h_ab" else if k = (0, 1) then "h_abI" else if k = (1, 0) then "h_abi" else if k = (1, 1) then "h_abIj"
  else if k = (0, 2) then "h_abIJ" else "h_abij"

/-- the names in `w_dict` (code_residual_equations.py 334-343) -/
def wString (n : Nat) : String := "w_" ++ String.ofList (modeTags.take n)

/-- the text returned by `_residual_terms_einsum` (code_residual_equations.py 379-403), without the newline at its end -/
def Line.render (l : Line) : String :=
  "R += " ++ l.pref.render ++ " * " ++ match l.product with
    | none => hString l.h
    | some (w, a, b, c) => "np.einsum('" ++ String.ofList a ++ "," ++ String.ofList b ++ "->" ++ String.ofList c ++ "', " ++ hString l.h ++ ", " ++ wString w ++ ")"

/-- the line before an entry of the quadratic block (code_residual_equations.py 470, 475) -/
def guard : Option Nat → String
  | some k => tabs 2 ++ "if " ++ wString k ++ " is not None:"
  | none => tabs 2 ++ "else:"

/-- the lines written for a statement (code_residual_equations.py 447-487) -/
def Stmt.lines : Stmt → List String
  | .plain l => [tabs 1 ++ l.render]
  | .quad ls => (tabs 1 ++ "if truncation.quadratic:") :: ls.flatMap fun g => [guard g.1, tabs 3 ++ g.2.render]
  | .ifW k ls => (tabs 1 ++ "if " ++ wString k ++ " is not None:") :: ls.map fun l => tabs 2 ++ l.render

/-- the text returned by `write_residual_function_string` (code_residual_equations.py 411-493); it begins with an empty line -/
def Fn.lines (f : Fn) : List String :=
  ["",
    "def calculate_order_" ++ toString f.order ++ "_residual(A, N, truncation, h_args, w_args):",
    tabs 1 ++ "\"\"\"Calculate the " ++ toString f.order ++ " order residual as a function of the W operators.\"\"\"",
    tabs 1 ++ "h_ab, h_abI, h_abi, h_abIj, h_abIJ, h_abij = h_args",
    tabs 1 ++ ", ".intercalate ((range2 1 (f.unpacked + 1)).map wString ++ ["*unusedargs"]) ++ " = w_args",
    "",
    tabs 1 ++ "R = np.zeros((" ++ ", ".intercalate ("A" :: "A" :: List.replicate f.order "N") ++ "), dtype=complex)",
    "",
    tabs 1 ++ "assert truncation." ++ (orderTags[f.gate]?).getD "" ++ ", \\",
    tabs 2 ++ "f\"Cannot calculate order " ++ toString f.order ++ " residual for {truncation.cc_truncation_order}\""] ++
  f.body.flatMap (fun s => "" :: s.lines) ++ ["", tabs 1 ++ "return R"]

/-- `residual_equations_import_statements` (code_import_statements_module.py 58-67) -/
def importLines : List String :=
  ["# system imports", "", "# third party imports", "import numpy as np", "", "# local imports", "from .symmetrize import symmetrize_tensor", ""]

/-- the functions, joined by two newlines (code_residual_equations.py 496-503) -/
def fnLines : List Fn → List String
  | [] => []
  | [f] => f.lines
  | f :: g :: fs => f.lines ++ [""] ++ fnLines (g :: fs)

/-- `generate_residual_equations_file` (code_residual_equations.py 506-531): the text written to the file. -/
def fileText (maxOrder maxRank : Nat) : Except PyErr (List Char) :=
  (residualModule maxOrder maxRank).map fun fns => (importLines ++ fnLines fns).flatMap fun s => s.toList ++ ['\n']

end TF.Residual
