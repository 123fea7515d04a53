import Verif.Model.W

/-!
# The texts of the LaTeX of the W operators (latex_w_equations.py)
-/

namespace TF.W

open TF.Py

/-- one power of an amplitude in the ground state equations (latex_w_equations.py 107-111) -/
def groundFactor (f : Nat × Nat) : String :=
  if f.2 = 1 then "\\bt^{" ++ toString f.1 ++ "}" else "(\\bt^{" ++ toString f.1 ++ "})^" ++ toString f.2

/-- one product of the ground state equations (latex_w_equations.py 103-113) -/
def groundTerm (t : LatexTerm Nat) : String := renderLatexPref t.pref ++ String.join (t.factors.map groundFactor)

/-- the right hand side of one order (latex_w_equations.py 115-119) -/
def groundRhs (e : Nat × List (LatexTerm Nat)) : String :=
  if 1 < e.1 then "\\hat{S}(" ++ String.intercalate " + " (e.2.map groundTerm) ++ ")"
  else String.intercalate " + " (e.2.map groundTerm)

/-- the equation of one order (latex_w_equations.py 94-121) -/
def groundEquation (e : Nat × List (LatexTerm Nat)) : String :=
  "\n\\\\\n    \\bW^{" ++ toString e.1 ++ "} &= " ++ groundRhs e

/-- the text returned by `ground_state_w_equations_latex` (latex_w_equations.py 89-124, 133) -/
def groundText (maxOrder : Nat) : String :=
  "\\begin{align}\n    \\bW^{0} &= 1" ++ String.join ((groundLatex maxOrder).map groundEquation) ++ "\n\\end{align}\n"

/-- the left hand side of the equation of a label other than `(1, 0)` (latex_w_equations.py 216-219) -/
def excitedHead (w : Nat × Nat) : String :=
  if w.2 = 0 then "    \\textbf{W}^{" ++ toString w.1 ++ "} = \\hat{S}("
  else "    \\textbf{W}^{" ++ toString w.1 ++ "}_{" ++ toString w.2 ++ "} = \\hat{S}("

/-- one amplitude (latex_w_equations.py 237-242) -/
def amplitude (a : Nat × Nat) : String :=
  if a.1 = 0 then "\\bt_{" ++ toString a.2 ++ "}"
  else if a.2 = 0 then "\\bt^{" ++ toString a.1 ++ "}"
  else "\\bt^{" ++ toString a.1 ++ "}_{" ++ toString a.2 ++ "}"

/-- one power of an amplitude in the excited state equations (latex_w_equations.py 229-243) -/
def excitedFactor (f : (Nat × Nat) × Nat) : String :=
  if f.2 = 1 then amplitude f.1 else "(" ++ amplitude f.1 ++ ")^" ++ toString f.2

/-- one product of the excited state equations with the `+` after it (latex_w_equations.py 224-244) -/
def excitedTerm (t : LatexTerm (Nat × Nat)) : String :=
  renderLatexPref t.pref ++ String.join (t.factors.map excitedFactor) ++ " + "

/-- One turn of the loop of `excited_state_w_equations_latex` over the labels (latex_w_equations.py 210-245).  The last
three characters of the whole text are cut off, whatever they are (245). -/
def excitedStep (code : List Char) (e : (Nat × Nat) × List (LatexTerm (Nat × Nat))) : List Char :=
  if e.1 = (1, 0) then code ++ "    \\textbf{W}^1 = \\bt^1 \\\\\n\n".toList
  else
    let c := code ++ ((excitedHead e.1).toList ++ e.2.flatMap fun t => (excitedTerm t).toList)
    c.take (c.length - 3) ++ ")\\\\ \n\n".toList

/-- the text that `excited_state_w_equations_latex` writes (latex_w_equations.py 198-246) -/
def excitedText (sop : SetOrder (List (Nat × Nat))) (maxOrder : Nat) : List Char :=
  (excitedLatex sop maxOrder).foldl excitedStep
    ("These are the W operators in full VECC.\\\\\n%\nThe maximum rank of W operator is: " ++ toString maxOrder ++
      "\\\\ \n\n\\begin{equation}\n\n    \\textbf{W}^0 = 1 \\\\\n\n").toList ++ "\\end{equation}\n".toList

end TF.W
