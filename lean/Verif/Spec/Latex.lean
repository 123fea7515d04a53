/-!
# Specification vocabulary: brackets of a text
-/

namespace TF.Spec.Latex

/-- The number of open brackets after the text when `d` are open before; `none` if a closing bracket has no opening one. -/
def depth (o c : Char) : List Char → Nat → Option Nat
  | [], d => some d
  | x :: l, d =>
    if x = o then depth o c l (d + 1)
    else if x = c then (match d with | 0 => none | d + 1 => depth o c l d)
    else depth o c l d

/-- every opening bracket has its closing bracket, in the right order -/
def Balanced (o c : Char) (l : List Char) : Prop := depth o c l 0 = some 0

end TF.Spec.Latex
