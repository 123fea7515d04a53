import Verif.Model.Truncations

/-!
# Model of `termfactory/driver.py` and `termfactory/_glue_.py`

The parsed arguments are the input; `argparse` is in `Model/Program`.
-/

namespace TF.Glue

open TF.Trunc

/-- `str(value)` inside an f-string.  Integers are rendered in decimal; how Python prints the other
JSON values is a parameter. -/
def renderVal (f : JVal → String) : JVal → String
  | .int i => toString i
  | v => f v

/-- Keyword arguments given to `_generate_python` / `_generate_latex`; `none` means the keyword was
not passed, `other` that some further keyword was passed. -/
structure Kwargs where
  onlyGroundState : Option Bool
  removeF : Option Bool
  ansatz : Option String
  side : Option String
  other : Bool
  deriving DecidableEq

/-- `not bool(kwargs)` -/
def Kwargs.isEmpty (k : Kwargs) : Bool :=
  k.onlyGroundState.isNone && k.removeF.isNone && k.ansatz.isNone && k.side.isNone && !k.other

/-- The dictionary `default_kwargs` (_glue_.py 26-31, 104-109). -/
def defaultKwargs : Kwargs :=
  { onlyGroundState := some true, removeF := some false, ansatz := some "full cc",
    side := some "RHS", other := false }

/-- `default_kwargs.update(kwargs)` -/
def Kwargs.update (d k : Kwargs) : Kwargs :=
  { onlyGroundState := k.onlyGroundState.or d.onlyGroundState
    removeF := k.removeF.or d.removeF
    ansatz := k.ansatz.or d.ansatz
    side := k.side.or d.side
    other := k.other || d.other }

/-- The generator functions that exist. -/
inductive Gen | fccPython | eTPython | fccLatex | ztLatex | eTLatex
  deriving DecidableEq, Repr

/-- A call of a generator: which one, with which truncations, flags and output path. -/
structure Call where
  gen : Gen
  trunc : Dict
  onlyGroundState : Bool
  removeF : Bool
  side : String
  path : String
  deriving DecidableEq

/-- `d[key]`, raising `KeyError` -/
def getKey (d : Dict) (k : TKey) : Except PyErr JVal :=
  match Dict.get? d (.enum k) with
  | some v => .ok v
  | none => .error .key

/-- The file name of the full-CC, z_t and eT LaTeX wrappers and of the full-CC Python wrapper
(_glue_.py 61-73, 136-185): flags, and the word for the side (unset for any other side, which makes
the use of the variable raise `UnboundLocalError`). -/
def flagPath (gs rf : Bool) (side kind rhsWord lhsWord ext : String) : Except PyErr String :=
  let f_term := if rf then "_no_f_terms" else ""
  let gs_string := if gs then "ground_state_" else ""
  if side = "RHS" then .ok ("./" ++ gs_string ++ kind ++ rhsWord ++ f_term ++ ext)
  else if side = "LHS" then .ok ("./" ++ gs_string ++ kind ++ lhsWord ++ f_term ++ ext)
  else .error .unbound

/-- The file name of `_gen_wrapper_eT_zhz_python` (_glue_.py 76-100). -/
def eTPath (f : JVal → String) (d : Dict) (side : String) : Except PyErr String := do
  let h ← getKey d .H
  let p ← getKey d .P
  let t ← getKey d .T
  let e ← getKey d .eT
  let z ← getKey d .CC
  return "./eT_zhz_eqs_" ++ side ++ "_H(" ++ renderVal f h ++ ")_P(" ++ renderVal f p ++ ")_T(" ++
    renderVal f t ++ ")_exp(" ++ renderVal f e ++ ")_Z(" ++ renderVal f z ++ ").py"

/-- The five `_gen_wrapper_*` functions (_glue_.py 61-100, 136-185).  They read the merged options,
which always have all four entries. -/
def wrapper (f : JVal → String) (g : Gen) (d : Dict) (kw : Kwargs) : Except PyErr Call :=
  match kw.onlyGroundState, kw.removeF, kw.side with
  | some gs, some rf, some side =>
    let path :=
      match g with
      | .fccPython => flagPath gs rf side "full_cc_" "equations" "special_LHS_equations" ".py"
      | .eTPython => eTPath f d side
      | .fccLatex => flagPath gs rf side "full_cc_" "symmetric_equations" "special_LHS_terms" ".tex"
      | .ztLatex => flagPath gs rf side "z_t_" "symmetric_equations" "special_LHS_terms" ".tex"
      | .eTLatex => flagPath gs rf side "eT_z_t_" "symmetric_equations" "special_LHS_terms" ".tex"
    match path with
    | .error e => .error e
    | .ok p => .ok { gen := g, trunc := d, onlyGroundState := gs, removeF := rf, side := side, path := p }
  | _, _, _ => .error .key

/-- `assert tkeys.key_list_type(trunc) == fam` -/
def assertType (d : Dict) (fam : Family) : Except PyErr Unit :=
  match keyListType d.length with
  | .error e => .error e
  | .ok fam' => if fam' = fam then .ok () else .error .assertion

/-- What the user asks for. -/
inductive Target | python | latex
  deriving DecidableEq, Repr

/-- The branch taken for an ansatz (_glue_.py 39-56 and 116-133). -/
def dispatch (f : JVal → String) (tgt : Target) (ansatz : String) (d : Dict) (kw : Kwargs) :
    Except PyErr Call :=
  if ansatz = "full cc" then
    match assertType d .fcc with
    | .error e => .error e
    | .ok () => wrapper f (if tgt = .python then .fccPython else .fccLatex) d kw
  else if ansatz = "z_t ansatz" then
    match assertType d .zhz with
    | .error e => .error e
    | .ok () => if tgt = .python then .error .notImplemented else wrapper f .ztLatex d kw
  else if ansatz = "eT_z_t ansatz" then
    match assertType d .eTz with
    | .error e => .error e
    | .ok () => wrapper f (if tgt = .python then .eTPython else .eTLatex) d kw
  else
    .error (if tgt = .python then .notImplemented else .exception)

/-- `_generate_python` (_glue_.py 25-56) and `_generate_latex` (_glue_.py 103-133) up to the call of
the generator.  The branch reads `kwargs['ansatz']`, not the merged dictionary. -/
def generate (f : JVal → String) (tgt : Target) (d : Dict) (kwargs : Kwargs) : Except PyErr Call :=
  let kw := if kwargs.isEmpty then defaultKwargs else kwargs
  let merged := if kwargs.isEmpty then defaultKwargs else defaultKwargs.update kwargs
  match kw.ansatz with
  | none => .error .key
  | some a => dispatch f tgt a d merged

/-- What each generator does with the truncations before it generates anything: the full-CC and eT
generators verify them (latex_full_cc.py 1533, code_full_cc.py 1224, latex_eT_zhz.py 2124,
code_eT_zhz.py 1975); the z_t generator only looks its three keys up (latex_zhz.py 1730-1732). -/
def startGenerator (memStr : String → Except PyErr Bool) (c : Call) : Except PyErr Call :=
  match c.gen with
  | .fccPython | .fccLatex =>
    match verify memStr .fcc c.trunc with
    | .error e => .error e
    | .ok () => .ok c
  | .eTPython | .eTLatex =>
    match verify memStr .eTz c.trunc with
    | .error e => .error e
    | .ok () => .ok c
  | .ztLatex =>
    match getKey c.trunc .H, getKey c.trunc .CC, getKey c.trunc .P with
    | .ok _, .ok _, .ok _ => .ok c
    | _, _, _ => .error .key

/-- `_make_trunc` (driver.py 51-66). -/
def makeTrunc (t : List Int) : Except PyErr Dict :=
  match keyListType t.length with
  | .error e => .error e
  | .ok fam => .ok ((fam.keys.zip t).map fun kv => (.enum kv.1, .int kv.2))

/-- The parsed command line (driver.py 20-48). `path` is the file behind `--path`, `none` inside if it
does not exist.  `removeF` is the text after `-rf`; `type=bool` makes every non-empty text true. -/
structure Args where
  t : Option (List Int)
  path : Option (Option Dict)
  ansatz : Option String
  excited : Bool
  removeF : Option String
  code : Bool
  lhs : Bool

/-- What a run of the driver does: the dictionary saved to `../truncs.json` (if any) and the result. -/
structure Outcome where
  saved : Option Dict
  result : Except PyErr Call

/-- The ansatz inferred from the truncation family (driver.py 130-138). -/
def ansatzName : Family → String
  | .fcc => "full cc"
  | .zhz => "z_t ansatz"
  | .eTz => "eT_z_t ansatz"

/-- `-rf text`: `type=bool` (driver.py 38), so every non-empty text, also "False", is true. -/
def rfFlag : Option String → Bool
  | some s => decide (s ≠ "")
  | none => false

/-- driver.py 117-151: options, ansatz, and the call of the glue layer. -/
def driverTail (memStr : String → Except PyErr Bool) (f : JVal → String) (a : Args) (trunc : Dict) :
    Except PyErr Call :=
  let ansatz : Except PyErr String :=
    match a.ansatz with
    | some s =>
      if s = "" then
        match keyListType trunc.length with
        | .error e => .error e
        | .ok fam => .ok (ansatzName fam)
      else if s = "eT_z_t ansatz" ∨ s = "z_t ansatz" ∨ s = "full cc" then .ok s
      else .error .assertion
    | none =>
      match keyListType trunc.length with
      | .error e => .error e
      | .ok fam => .ok (ansatzName fam)
  match ansatz with
  | .error e => .error e
  | .ok s =>
    let kw : Kwargs :=
      { onlyGroundState := some (!a.excited)
        removeF := some (rfFlag a.removeF)
        ansatz := some s
        side := some (if a.lhs then "LHS" else "RHS")
        other := false }
    match generate f (if a.code then .python else .latex) trunc kw with
    | .error e => .error e
    | .ok c => startGenerator memStr c

/-- driver.py 69-151: the main program. -/
def driver (memStr : String → Except PyErr Bool) (f : JVal → String) (a : Args) : Outcome :=
  match a.t, a.path with
  | some _, some _ => { saved := none, result := .error .exception }
  | some t, none =>
    match makeTrunc t with
    | .error e => { saved := none, result := .error e }
    | .ok d =>
      match save memStr d with
      | .error e => { saved := none, result := .error e }
      | .ok file => { saved := some file, result := driverTail memStr f a d }
  | none, some none => { saved := none, result := .error .assertion }
  | none, some (some file) =>
    match load memStr file with
    | .error e => { saved := none, result := .error e }
    | .ok d => { saved := none, result := driverTail memStr f a d }
  | none, none => { saved := none, result := .error .exception }

end TF.Glue
