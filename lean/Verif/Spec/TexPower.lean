/-!
# Specification vocabulary: the exponent that TeX shows
-/

namespace TF.Spec.Latex

/-- What TeX takes as the argument of `^`: a group in braces, and without braces only one character. -/
def texArg : List Char → List Char
  | [] => []
  | c :: r => if c = '{' then r.takeWhile (fun x => decide (x ≠ '}')) else [c]

/-- The exponent that TeX shows on the first closing parenthesis that has one. -/
def shownPower : List Char → Option (List Char)
  | [] => none
  | [_] => none
  | a :: b :: l => if a = ')' ∧ b = '^' then some (texArg l) else shownPower (b :: l)

/-- The text shows the power `k`: no exponent for 1, and otherwise the decimal number `k`. -/
def ShowsPower (s : String) (k : Nat) : Prop := shownPower s.toList = if k = 1 then none else some (toString k).toList

end TF.Spec.Latex
