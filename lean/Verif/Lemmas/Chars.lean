import Verif.Lemmas.SourceConst

/-!
# Reading concrete lines

A `String` is stored as bytes, and evaluating `"..".toList` in the kernel decodes them one after another.  `charsOf` rewrites a literal to its list of characters with
`String.toList_ofList`, which the kernel accepts without decoding anything.
-/

namespace TF.Spec.Source

open Lean Meta

/-- `"abc".toList = ['a', 'b', 'c']` -/
simproc_decl charsOf (String.toList _) := fun e => do
  let_expr String.toList s := e | return .continue
  match s with
  | .lit (.strVal str) =>
    let l := toExpr str.toList
    let pf := mkApp (mkConst ``String.toList_ofList) l
    return .done { expr := l, proof? := some (← mkExpectedTypeHint pf (← mkEq e l)) }
  | _ => return .continue

/-- `reads` for a list of characters -/
def readsChars (k : Nat) (cs : List Char) (ss : List Stmt) : Bool :=
  let t := run ⟨0, .start 0⟩ cs
  let ls := lines t.1
  decide (t.2 = ⟨0, .start 0⟩) && decide (ls.1 = []) && (ls.2.all fun x => decide (k ≤ x.1)) && sameBlocks k ss (blocks ls.2) && ss.all fun s => !s.isElse

theorem reads_chars {k : Nat} {strs : List String} {ss : List Stmt} : reads k strs ss = readsChars k (strs.flatMap fun s => s.toList ++ ['\n']) ss := rfl

/-- rewrite the text to characters -/
macro "to_chars" : tactic => `(tactic| simp only [↓reduceIte, reduceIte, List.flatMap_cons, List.flatMap_nil, List.flatMap_append, String.toList_ofList, Nat.reduceLT, Bool.false_eq_true,
  String.toList_append, charsOf, List.map_cons, List.map_nil, String.toList_intercalate])

end TF.Spec.Source
