import Verif.Spec.Json

/-!
# Model of the text of a file with truncations

`_save_to_JSON` (truncations.py 156-163) writes `json.dumps(dict_copy)`, `_load_from_JSON` (truncations.py 175-179) reads the file with `json.loads`.
Simplification: the text is described for keys of printable ASCII characters that need no escapes and for values that are integers or booleans; `none` stands for
dictionaries and texts that are not described.
-/

namespace TF.Trunc

open TF.Spec.Json

/-- the text of a value in `json.dumps` -/
def valueText : JVal → Option (List Char)
  | .int i => some (toString i).toList
  | .bool b => some (if b then "true".toList else "false".toList)
  | .float _ => none
  | .other => none

/-- the text of a key in `json.dumps` -/
def keyText : PyKey → Option (List Char)
  | .str s => if s.toList.all (fun c => isPlain c && decide (c.toNat < 127)) then some ('"' :: s.toList ++ ['"']) else none
  | .enum _ => none

/-- `"key": value` -/
def entryText (e : PyKey × JVal) : Option (List Char) :=
  match keyText e.1, valueText e.2 with
  | some k, some v => some (k ++ [':', ' '] ++ v)
  | _, _ => none

/-- the entries with `", "` between them -/
def entriesText : Dict → Option (List Char)
  | [] => some []
  | [e] => entryText e
  | e :: d =>
    match entryText e, entriesText d with
    | some a, some b => some (a ++ [',', ' '] ++ b)
    | _, _ => none

/-- `json.dumps(dict_copy)` (truncations.py 161) -/
def dumps (d : Dict) : Option (List Char) := (entriesText d).map fun t => '{' :: t ++ ['}']

/-- `save_trunc_to_JSON` (truncations.py 156-173): the text that is written -/
def saveText (memStr : String → Except PyErr Bool) (d : Dict) : Except PyErr (Option (List Char)) := (save memStr d).map dumps

/-- `_load_from_JSON` (truncations.py 175-214): the file has this text -/
def loadText (memStr : String → Except PyErr Bool) (text : List Char) : Option (Except PyErr Dict) := (loads text).map (load memStr)

end TF.Trunc
