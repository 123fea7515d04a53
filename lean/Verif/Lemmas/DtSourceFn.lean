import Verif.Lemmas.DtSource
import Verif.Lemmas.Chars

/-!
# The text of the generated module of the amplitude derivatives, read as Python: the functions of the orders
-/

namespace TF.Dt

set_option maxRecDepth 10000

open TF.Py TF.Helper TF.W TF.Spec TF.Spec.Source
open TF.CC (tabs)

/-! ## The functions of the orders -/

def dtParams (opt : Bool) : List String :=
  ["A", "N", "ansatz", "trunc", "epsilon", "h_args", "t_args", "dt_args", "w_args"] ++ if opt then ["opt_epsilon", "opt_linked_path_list", "opt_unlinked_path_list"] else []

/-- `'acij,cb->abij'` -/
def epsilonSubs (k : Nat) : List Char := 'a' :: 'c' :: (modeTags.take k ++ ",cb->ab".toList ++ modeTags.take k)

def epsilonExpr (opt : Bool) (k : Nat) : Expr :=
  if opt then .call (nameExpr "opt_epsilon") [nameExpr (wString k), nameExpr "epsilon"]
  else .call (.attr (nameExpr "np") "einsum".toList) [.str (epsilonSubs k), nameExpr (wString k), nameExpr "epsilon"]

/-- `residual -= f(A, N, trunc, t_args, dt_args)` -/
def subtractAst (side : Side) (opt : Bool) (k : Nat) : Spec.Source.Stmt :=
  .sub "residual".toList (.call (nameExpr (sideName side opt k)) ((sideParams side opt).map nameExpr))

def mixedAst (opt : Bool) (k : Nat) : List Spec.Source.Stmt := if k < 2 then [.pass] else [subtractAst .linked opt k]

def ccAst (opt : Bool) (k : Nat) : List Spec.Source.Stmt :=
  if k < 2 then [.pass] else [subtractAst .linked opt k, if k < 4 then .pass else subtractAst .unlinked opt k]

def ansatzExpr (w : String) : Expr := .attr (nameExpr "ansatz") w.toList

def unpackWAst (k : Nat) : Spec.Source.Stmt := .unpack ((range2 1 (k + 1)).map fun n => (wString n).toList) "unusedargs".toList (nameExpr "w_args")

def residualName (k : Nat) : String := "calculate_order_" ++ toString k ++ "_residual"

def residualAst (k : Nat) : Spec.Source.Stmt :=
  .assign ["residual".toList] (.call (.attr (nameExpr "residual_equations") (residualName k).toList) (["A", "N", "trunc", "h_args", "w_args"].map nameExpr))

def epsilonAst (opt : Bool) (k : Nat) : Spec.Source.Stmt := .sub "residual".toList (.prod [(false, nameExpr "1"), (true, factExpr k), (false, epsilonExpr opt k)])

def ansatzAst (opt : Bool) (k : Nat) : Spec.Source.Stmt :=
  .cond (ansatzExpr "VECI") [.pass] [.cond (ansatzExpr "VE_MIXED") (mixedAst opt k) [.cond (ansatzExpr "VECC") (ccAst opt k) []]]

def symAst (k : Nat) : Spec.Source.Stmt :=
  .assign [(dtString k).toList] (.call (nameExpr "symmetrize_tensor") [nameExpr "N", nameExpr "residual", .kw "order".toList (natWord k)])

def dtBody (opt : Bool) (k : Nat) : List Spec.Source.Stmt :=
  [.doc, unpackWAst k, residualAst k, epsilonAst opt k, ansatzAst opt k, symAst k, .ret (some (nameExpr (dtString k)))]

def dtFnAst (opt : Bool) (k : Nat) : Spec.Source.Stmt := .defn (dtFnName opt k).toList ((dtParams opt).map String.toList) (dtBody opt k)

theorem code_dtFn (opt : Bool) {k : Nat} (h1 : 1 ≤ k) (h6 : k ≤ 6) : Code 0 ((dtFnAt k).lines opt) [dtFnAst opt k] := by
  refine code_reads (reads_chars.trans ?_)
  interval_cases k <;> cases opt <;>
  · dsimp only [DtFunction.lines, dtFnAt, dtHead, tabs, ccLines, mixedLines, dtFnName, optSuffix, epsilonTerm, subtractLine, sideName, Side.paths, Side.name, dtFnAst, dtBody,
      unpackWAst, residualAst, epsilonAst, ansatzAst, symAst, nameExpr, dtString, tString, wString, residualName, ansatzExpr, mixedAst, ccAst, subtractAst, dtParams, sideParams,
      epsilonExpr, epsilonSubs, factExpr]
    to_chars
    decide +kernel

/-! ## The functions that are called from outside -/

def solverName (opt : Bool) (k : Nat) : String := "solve_" ++ (orderTags[k]?).getD "" ++ "_equations" ++ optSuffix opt

def solverParams (opt : Bool) : List String :=
  ["A", "N", "ansatz", "trunc", "epsilon", "h_args", "t_args", "dt_args", "w_args"] ++ if opt then ["opt_path_list"] else []

def solverArgs (opt : Bool) (k : Nat) : List Expr :=
  ["A", "N", "ansatz", "trunc", "epsilon", "h_args", "t_args", "dt_args", "w_args"].map nameExpr ++
    if opt then ["opt_epsilon_path_list", "opt_linked_path_list", "opt_unlinked_path_list"].map fun w => .index (nameExpr w) [natWord (k - 1)] else []

def solverGuard (k : Nat) : Spec.Source.Stmt :=
  .cond (.not (.attr (nameExpr "trunc") ((orderTags[k]?).getD "").toList))
    [.raise (.call (nameExpr "Exception") [.str ("It appears that " ++ (orderTags[k]?).getD "" ++ " is not true, this cannot be." ++ "Something went terribly wrong!!!").toList])] []

def solverBody (opt : Bool) (k : Nat) : List Spec.Source.Stmt :=
  [.doc, solverGuard k] ++ (if opt then [.assign (["opt_epsilon_path_list", "opt_linked_path_list", "opt_unlinked_path_list"].map String.toList) (nameExpr "opt_path_list")] else []) ++
    [.assign [(dtString k).toList] (.call (nameExpr (dtFnName opt k)) (solverArgs opt k)), .ret (some (nameExpr (dtString k)))]

def solverAst (opt : Bool) (k : Nat) : Spec.Source.Stmt := .defn (solverName opt k).toList ((solverParams opt).map String.toList) (solverBody opt k)

theorem code_solver (opt : Bool) {k : Nat} (h1 : 1 ≤ k) (h6 : k ≤ 6) : Code 0 (solverLines opt k k) [solverAst opt k] := by
  refine code_reads (reads_chars.trans ?_)
  interval_cases k <;> cases opt <;>
  · dsimp only [solverLines, solverAst, solverName, solverParams, solverBody, solverGuard, solverArgs, tabs, dtFnName, optSuffix, nameExpr, dtString, tString]
    to_chars
    decide +kernel

end TF.Dt
