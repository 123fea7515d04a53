import Verif.Model.FullCC.Latex
import Verif.Model.Zhz
import Verif.Model.ET

/-!
# Model of the characters of the LaTeX documents

The part of the files that depends on the request: the text between the static header of `reference_latex_headers.py` and `\end{document}`.
`Model/FullCC/Latex`, `Model/Zhz` and `Model/ET` have the pieces; here `str.replace` is spelled out for lists of characters.
-/

namespace TF.LatexText

open TF.CC

/-- `str.replace` of a text of three characters by the empty text: leftmost occurrences, not overlapping -/
def remove3 (a b c : Char) : List Char → List Char
  | x :: y :: z :: l => if x = a ∧ y = b ∧ z = c then remove3 a b c l else x :: remove3 a b c (y :: z :: l)
  | l => l

/-- `.replace("^{}", "").replace("_{}", "")` (latex_full_cc.py 1305-1339, latex_zhz.py 1715-1717, latex_eT_zhz.py 2109-2111) -/
def strip (s : String) : List Char := remove3 '_' '{' '}' (remove3 '^' '{' '}' s.toList)

/-- the text of the projection operator (latex_full_cc.py 1497-1506, latex_zhz.py 1786-1794, latex_eT_zhz.py 2180-2188) -/
def omegaText (letters : List (Bool × Char)) : String :=
  if letters = [] then "1" else String.join (letters.map fun p => (if p.1 then "\\up{" else "\\down{") ++ String.ofList [p.2] ++ "}")

/-! ## Full CC -/

/-- the text of an equation before empty superscripts and subscripts are removed (latex_full_cc.py 1305-1339) -/
def fccBody : CC.Equation → String
  | .zero f l u => joinPlus [CC.renderPlain f, CC.renderPlain l, CC.renderPlain u]
  | .general f lp l u =>
    (if f = [] then "    \\textit{no fully connected terms}" else CC.renderPlain f) ++ "\n%\n%\n\\\\  &+\n%\n%\n" ++
    (if l = [] ∧ lp = [] then "    \\textit{no linked disconnected terms}" else if l = [] then CC.renderPlain lp else splitText.intercalate (l.map CC.renderCondensed)) ++
    "\n%\n%\n\\\\  &+\n%\n%\n" ++
    (match u with | none => "    \\textit{no unlinked disconnected terms}" | some g => CC.renderCondensed g)

/-- The letters of the projection operator (latex_full_cc.py 1499-1503).  Simplification: a letter that does not exist is left out instead of raising IndexError; documents
exist only for ranks up to 3 (`document_ok_iff`), where all letters exist. -/
def fccLetters (omega : Op) : List (Bool × Char) :=
  match Zhz.omegaLetters omega with
  | .ok l => l
  | .error _ => []

/-- the heading of a section (latex_full_cc.py 1562-1568); `first`: the rank is higher than that of the previous operator -/
def fccHeading (first : Bool) (rank : Nat) : String :=
  if first then (if rank ≥ 2 then "\\newpage\n" else "") ++ "\\subsection{" ++ ((["0 order", "Linear", "Quadratic", "Cubic", "Quartic", "Quintic", "Sextic", "Septic", "Octic"][rank]?).getD "") ++ " Equations}\n\n"
  else ""

/-- one round of the loop (latex_full_cc.py 1494-1521, 1561-1570) -/
def fccEntry (first : Bool) (x : Op × List LhsTerm × CC.Equation) : List Char :=
  ("%\n%\n%\n%\n%\n\n" ++ fccHeading first x.1.rank ++ "\\begin{align}\\begin{split}\n    \\hat{\\Omega} = " ++ omegaText (fccLetters x.1) ++ "\n\\\\ LHS &=\n    " ++ CC.renderLhs x.2.1 ++
    "\n\\\\ RHS &=\n%\n%\n").toList ++ strip (fccBody x.2.2) ++ "\n\\end{split}\\end{align}\n\n".toList

/-- `latex_code` (latex_full_cc.py 1549-1570); `prev` are the previous operators, the last one for the first -/
def fccText (d : List (Op × List LhsTerm × CC.Equation)) : List Char :=
  (d.zip (Zhz.previous (d.map Prod.fst))).flatMap fun p => fccEntry (decide (p.1.1.rank > p.2.rank)) p.1

/-! ## z_t -/

/-- the heading of a section (latex_zhz.py 1764-1768); `rank_name.lower().capitalize()` of the names in the list -/
def ztHeading : Option String → String
  | none => "\\vspace{2cm}"
  | some n => "\\paragraph{" ++ n.toLower.capitalize ++ " Equations}\n\n"

/-- `_build_first_z_term` (latex_zhz.py 1549-1571) -/
def firstText : Option (List Char × List Char) → String
  | none => "\\bh_{0,xb}(1-\\delta_{x\\gamma})"
  | some (u, l) => "\\bh^{" ++ String.ofList u ++ "}_{" ++ String.ofList l ++ "}(1-\\delta_{x\\gamma})"

/-- `_build_third_z_term` (latex_zhz.py 1592-1607) -/
def thirdText : Option (List Zhz.PTerm) → String
  | none => ""
  | some l => Zhz.renderSum false l

/-- `_build_fifth_z_term` (latex_zhz.py 1628-1663) -/
def fifthText (lhs : Op) (l : List Zhz.Fifth) : String := joinPlus ((l.zip (List.range l.length)).map fun p => p.1.render lhs p.2)

/-- the text of an equation before empty superscripts and subscripts are removed (latex_zhz.py 1687-1717) -/
def ztBody (lhs : Op) (e : Zhz.Equation) : String :=
  firstText e.first ++ "\\\\&+\\sum\\Big(" ++ thirdText e.third ++ "\\Big)(1-\\delta_{cb})" ++ "\\\\&-i\\sum\\Big(" ++ fifthText lhs e.fifth ++ "\\Big)"

/-- the text before the equation (latex_zhz.py 1764-1845, latex_eT_zhz.py 2159-2240) -/
def sectionHead (heading : Option String) (letters : List (Bool × Char)) (tUpper tLower gUpper gLower : List Char) : String :=
  ztHeading heading ++ "%\n%\n%\n%\n%\n\n" ++ "\\begin{equation}\n    \\hat{\\Omega} = " ++ omegaText letters ++ "\n\\qquad\\qquad\n    i\\dv{\\hat{\\bt}^{" ++ String.ofList tUpper ++ "}_{" ++
  (if tLower = [] then "\\gamma" else String.ofList tLower ++ ",\\gamma") ++ "}}{\\tau} = \\hat{G}^{" ++ String.ofList gUpper ++ "}_{" ++
  (if gLower = [] then "\\gamma\\gamma" else String.ofList gLower ++ ", \\gamma\\gamma") ++ "}\n\\end{equation}\n\n%\n%\n%\n%\n%\n\n\\begin{align}\\begin{split}\nLHS &=\n"

/-- one pass of the main loop (latex_zhz.py 1750-1850) -/
def ztSection (s : Zhz.Section) : List Char :=
  (sectionHead s.heading s.letters s.tUpper s.tLower s.gUpper s.gLower ++ "    i\\Big(\\dv{\\hat{\\bz}^{" ++ String.ofList s.zUpper ++ "}_{\\gamma}}{\\tau}\\Big)\n\\\\ RHS &=\n%\n%\n").toList ++
  strip (ztBody s.omega s.eqn) ++ "\n\\end{split}\\end{align}\n\n".toList

/-- `latex_code` (latex_zhz.py 1750-1850) -/
def ztText (d : List Zhz.Section) : List Char := d.flatMap ztSection

/-! ## eT_z_t -/

/-- the first term, only for `'RHS'` (latex_eT_zhz.py 2060-2072) -/
def eTFirst : Option (Option (List Char × List Char)) → String
  | none => ""
  | some x => firstText x

/-- `_build_third_eTz_term` (latex_eT_zhz.py 2008-2047) -/
def eTThird (mode : ET.Mode) : Option (List ET.PTerm) → String
  | none => ""
  | some l => ET.renderSum (l.map (ET.PTerm.render mode))

/-- the fifth term, only for `'RHS'` (latex_eT_zhz.py 2103-2108) -/
def eTFifth (lhs : Op) : Option (List Zhz.Fifth) → String
  | none => ""
  | some f => "\\\\&-i\\sum\\Big(" ++ fifthText lhs f ++ "\\Big)"

/-- the text of an equation before empty superscripts and subscripts are removed (latex_eT_zhz.py 2071-2111) -/
def eTBody (mode : ET.Mode) (lhs : Op) (e : ET.Equation) : String :=
  eTFirst e.first ++ "\\\\&+\\sum\\Big(" ++ eTThird mode e.third ++ "\\Big)" ++ eTFifth lhs e.fifth

/-- the left-hand side, only for `'RHS'` (latex_eT_zhz.py 2222-2252) -/
def eTLhs (zUpper : List Char) : ET.Mode → String
  | .rhs => "    i\\Big(\\dv{\\hat{\\bz}^{" ++ String.ofList zUpper ++ "}_{\\gamma}}{\\tau}\\Big)\n\\\\ RHS &=\n"
  | .lhs => ""

/-- one pass of the main loop (latex_eT_zhz.py 2145-2266) -/
def eTSection (mode : ET.Mode) (s : ET.Section) : List Char :=
  (sectionHead s.heading s.letters s.tUpper s.tLower s.gUpper s.gLower ++ eTLhs s.zUpper mode ++ "%\n%\n").toList ++
  strip (eTBody mode s.omega s.eqn) ++ "\n\\end{split}\\end{align}\n\n".toList

/-- `latex_code` (latex_eT_zhz.py 2145-2266) -/
def eTText (mode : ET.Mode) (d : List ET.Section) : List Char := d.flatMap (eTSection mode)

end TF.LatexText
