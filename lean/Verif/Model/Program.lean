import Verif.Model.Glue
import Verif.Model.TruncText
import Verif.Model.FullCC.Latex
import Verif.Model.FullCC.Text
import Verif.Model.Zhz
import Verif.Model.ET
import Verif.Model.ETPython

/-!
# Model of a run of `driver.py`: from the words of the command line to the files that are written

Every generator first builds the whole text and then opens the file (latex_full_cc.py 1579-1581, code_full_cc.py 1300-1302, latex_zhz.py 1865-1867, code_eT_zhz.py 2050-2052,
latex_eT_zhz.py 2280-2282), so a run writes the file of truncations (driver.py 93), then one file with equations, or stops before.
Simplifications: the log file is not modelled; a LaTeX document is its list of equations, without the static header.
-/

namespace TF.Program

open TF.Trunc TF.Glue TF.Spec.Json TF.Py

/-! ## The command line (driver.py 18-48) -/

/-- the options of the parser (driver.py 29-44), without `-h` -/
inductive Opt | logPath | stdlog | t | ansatz | excited | removeF | code | lhs | path
  deriving DecidableEq, Repr

/-- the option strings (driver.py 29-44) -/
def optionOf (s : String) : Option Opt :=
  if s = "-l" ∨ s = "--log_path" then some .logPath
  else if s = "-s" ∨ s = "--stdlog" then some .stdlog
  else if s = "-t" then some .t
  else if s = "-a" ∨ s = "--ansatz" then some .ansatz
  else if s = "-es" ∨ s = "--excited_state" then some .excited
  else if s = "-rf" ∨ s = "--remove_f_terms" then some .removeF
  else if s = "-c" ∨ s = "--code" then some .code
  else if s = "-lhs" then some .lhs
  else if s = "-p" ∨ s = "--path" then some .path
  else none

/-- a word that `argparse` takes as a value: no dash in front, or a negative integer (no option of this parser looks like a number) -/
def isValue (s : String) : Bool :=
  match s.toList with
  | '-' :: l => decide (l ≠ []) && l.all Char.isDigit
  | _ => true

/-- the attributes of the parsed arguments -/
structure Parsed where
  logPath : String
  stdlog : Bool
  t : Option (List Int)
  ansatz : Option String
  excited : Bool
  removeF : Option String
  code : Bool
  lhs : Bool
  path : Option String
  deriving DecidableEq, Repr

/-- the defaults (driver.py 29-44) -/
def defaults : Parsed := ⟨"default_logging_file.txt", false, none, none, false, none, false, false, none⟩

/-- Why there are no parsed arguments: a usage error (`argparse` exits with status 2), or a word that is not described here (abbreviated options, `-x=y`, `-h`, integers with signs, underscores
or leading zeros). -/
inductive Stop | usage | undescribed
  deriving DecidableEq, Repr

/-- what the parser waits for -/
inductive Wait
  | nothing
  | values (l : List Int)
  | value (o : Opt)
  deriving DecidableEq, Repr

/-- an option without a value (`action='store_true'`) -/
def setFlag (a : Parsed) : Opt → Parsed
  | .stdlog => { a with stdlog := true }
  | .excited => { a with excited := true }
  | .code => { a with code := true }
  | .lhs => { a with lhs := true }
  | _ => a

/-- an option with one value -/
def setValue (a : Parsed) (s : String) : Opt → Parsed
  | .logPath => { a with logPath := s }
  | .ansatz => { a with ansatz := some s }
  | .removeF => { a with removeF := some s }
  | .path => { a with path := some s }
  | _ => a

/-- the option begins -/
def begin (a : Parsed) : Opt → Wait × Parsed
  | .t => (.values [], a)
  | .logPath => (.value .logPath, a)
  | .ansatz => (.value .ansatz, a)
  | .removeF => (.value .removeF, a)
  | .path => (.value .path, a)
  | o => (.nothing, setFlag a o)

/-- the values of an option end: `nargs='+'` needs at least one, the others exactly one -/
def close (a : Parsed) : Wait → Except Stop Parsed
  | .nothing => .ok a
  | .values [] => .error .usage
  | .values l => .ok { a with t := some l }
  | .value _ => .error .usage

/-- `parser.parse_args()` (driver.py 48), word by word -/
def parseWords : Wait → List String → Parsed → Except Stop Parsed
  | w, [], a => close a w
  | w, s :: rest, a =>
    match optionOf s with
    | some o =>
      match close a w with
      | .error e => .error e
      | .ok a' => parseWords (begin a' o).1 rest (begin a' o).2
    | none =>
      match w with
      | .nothing => .error .usage
      | .value o => parseWords .nothing rest (setValue a s o)
      | .values l =>
        match integer s.toList with
        | none => .error .undescribed
        | some i => parseWords (.values (l ++ [i])) rest a

/-- `prepare_parsed_arguments` (driver.py 18-48) -/
def parse (argv : List String) : Except Stop Parsed :=
  if argv.all (fun s => (optionOf s).isSome || isValue s) then parseWords .nothing argv defaults else .error .undescribed

/-! ## The generators -/

/-- what is written to the file with the equations -/
inductive Output
  | fccLatex (d : List (CC.Op × List CC.LhsTerm × CC.Equation))
  | fccPython (text : String)
  | ztLatex (d : List Zhz.Section)
  | eTLatex (mode : ET.Mode) (d : List ET.Section)
  | eTPython (text : String)

/-- an integer or a boolean used as a number in `range` -/
def intVal : JVal → Option Int
  | .int i => some i
  | .bool b => some (if b then 1 else 0)
  | .float _ => none
  | .other => none

/-- the number under a key -/
def num (d : Dict) (k : TKey) : Option Int :=
  match Dict.get? d (.enum k) with
  | some v => intVal v
  | none => none

/-- the iteration orders of Python sets (hash dependent) -/
structure Orders where
  nat : SetOrder Nat
  ts : SetOrder (List CC.T)
  pairs : SetOrder (List (Nat × Nat))

/-- `generate_z_t_symmetric_latex` (latex_zhz.py 1721-1869).  The truncations are not verified, so the loops run over `range` of any integers: a negative rank gives no operators, and with a negative
order no projection operator is kept (latex_full_cc.py 69-74, 89-91). -/
def ztDocument (gs rf : Bool) (h cc p : Int) : Except PyErr (List Zhz.Section) :=
  if cc < 0 ∨ p < 0 then .ok []
  else
    CC.collect (fun q => CC.one (Zhz.sectionFor gs rf (if h < 0 then [] else Zhz.prunedH h.toNat) (Zhz.zOps cc.toNat gs) q.1 q.2))
      ((CC.omegaOps cc.toNat p.toNat).zip (Zhz.previous (CC.omegaOps cc.toNat p.toNat)))

/-- `lhs_rhs` -/
def sideMode (s : String) : Option ET.Mode :=
  if s = "RHS" then some .rhs else if s = "LHS" then some .lhs else none

/-- A generator that passed its checks: the text or the error.  `none`: a value of the truncations is not an integer. -/
def output (o : Orders) (c : Call) : Option (Except PyErr Output) :=
  match c.gen with
  | .fccLatex =>
    match num c.trunc .H, num c.trunc .CC, num c.trunc .S, num c.trunc .P with
    | some h, some cc, some s, some p => some ((CC.latexDocument o.nat o.ts o.pairs c.removeF c.onlyGroundState h.toNat cc.toNat s.toNat p.toNat).map .fccLatex)
    | _, _, _, _ => none
  | .fccPython =>
    match num c.trunc .H, num c.trunc .CC, num c.trunc .S, num c.trunc .P with
    | some h, some cc, some s, some p => some ((CC.pythonFile o.nat o.ts h.toNat cc.toNat s.toNat p.toNat).map fun F => .fccPython (CC.fileText cc.toNat F))
    | _, _, _, _ => none
  | .ztLatex =>
    match num c.trunc .H, num c.trunc .CC, num c.trunc .P with
    | some h, some cc, some p => some ((ztDocument c.onlyGroundState c.removeF h cc p).map .ztLatex)
    | _, _, _ => none
  | .eTLatex =>
    match num c.trunc .H, num c.trunc .CC, num c.trunc .T, num c.trunc .eT, num c.trunc .P, sideMode c.side with
    | some h, some cc, some t, some k, some p, some m =>
      some ((ET.document c.onlyGroundState c.removeF m h.toNat cc.toNat t.toNat k.toNat p.toNat).map (.eTLatex m))
    | _, _, _, _, _, _ => none
  | .eTPython =>
    match num c.trunc .H, num c.trunc .CC, num c.trunc .T, num c.trunc .eT, num c.trunc .P, sideMode c.side with
    | some h, some cc, some t, some k, some p, some m =>
      some ((ETPy.module c.onlyGroundState m h.toNat cc.toNat t.toNat k.toNat p.toNat).map fun x => .eTPython (ETPy.fileText m x))
    | _, _, _, _, _, _ => none

/-! ## The program (driver.py 69-148) -/

/-- the content of a file -/
inductive Content
  | text (t : List Char)
  | equations (x : Output)

/-- A run: the files that are written, in order, and how it ends. -/
structure Run where
  writes : List (String × Content)
  result : Except PyErr Unit

/-- The input of the main program; `read` gives the text of the files that exist.  `none`: a text that is not described in `Spec/Json`
and is read; with `-t` the file is not read (driver.py 82-99). -/
def arguments (read : String → Option (List Char)) (a : Parsed) : Option Args :=
  match a.path with
  | none => some ⟨a.t, none, a.ansatz, a.excited, a.removeF, a.code, a.lhs⟩
  | some p =>
    match read p with
    | none => some ⟨a.t, some none, a.ansatz, a.excited, a.removeF, a.code, a.lhs⟩
    | some text =>
      match loads text with
      | none => if a.t = none then none else some ⟨a.t, some none, a.ansatz, a.excited, a.removeF, a.code, a.lhs⟩
      | some d => some ⟨a.t, some (some d), a.ansatz, a.excited, a.removeF, a.code, a.lhs⟩

/-- `save_trunc_to_JSON('../truncs.json', trunc)` (driver.py 93) -/
def savedFile : Option Dict → Option (List (String × Content))
  | none => some []
  | some d => (dumps d).map fun t => [("../truncs.json", .text t)]

/-- the end of the run: the generator (driver.py 143-148) -/
def finish (o : Orders) (w : List (String × Content)) : Except PyErr Call → Option Run
  | .error e => some ⟨w, .error e⟩
  | .ok c =>
    match output o c with
    | none => none
    | some (.error e) => some ⟨w, .error e⟩
    | some (.ok x) => some ⟨w ++ [(c.path, .equations x)], .ok ()⟩

/-- the main program (driver.py 69-148) after the command line is parsed; `none`: not described -/
def main (o : Orders) (memStr : String → Except PyErr Bool) (f : JVal → String) (read : String → Option (List Char)) (a : Parsed) : Option Run :=
  match arguments read a with
  | none => none
  | some args =>
    match savedFile (driver memStr f args).saved with
    | none => none
    | some w => finish o w (driver memStr f args).result

end TF.Program
