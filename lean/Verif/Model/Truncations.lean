import Verif.Py

/-!
# Model of `termfactory/truncation_keys.py` and `termfactory/truncations.py`

Dictionaries are association lists in insertion order.  The values of a truncation dictionary are
JSON values (that is what a file can contain); comparison with integers behaves as in Python.
The JSON text itself is not modelled: a file is identified with the dictionary `json.loads` returns
and `json.dumps` receives (standard library, trusted).
-/

namespace TF

/-- Exceptions raised by the modelled code (only the class matters). -/
inductive PyErr
  | assertion | key | value | type | attribute | exception | notImplemented | unbound | index | name
  deriving DecidableEq, Repr

namespace Trunc

/-- `TruncationsKeys` (truncation_keys.py 6-24); the aliases are used as names. -/
inductive TKey | H | CC | S | P | T | eT
  deriving DecidableEq, Repr

/-- The string values of the enum members (truncation_keys.py 10-15). -/
def TKey.str : TKey → String
  | .H => "maximum_hamiltonian_rank"
  | .CC => "maximum_coupled_cluster_rank"
  | .S => "s_taylor_max_order"
  | .P => "omega_max_order"
  | .T => "maximum_T_rank"
  | .eT => "eT_taylor_max_order"

/-- `TruncationsKeys(string)`: look a member up by value, `ValueError` if there is none. -/
def TKey.ofStr (s : String) : Except PyErr TKey :=
  if s = TKey.str .H then .ok .H
  else if s = TKey.str .CC then .ok .CC
  else if s = TKey.str .S then .ok .S
  else if s = TKey.str .P then .ok .P
  else if s = TKey.str .T then .ok .T
  else if s = TKey.str .eT then .ok .eT
  else .error .value

/-- A dictionary key: an enum member or a plain string. -/
inductive PyKey
  | enum (k : TKey)
  | str (s : String)
  deriving DecidableEq, Repr

/-- A JSON value.  `other` stands for strings, null, lists and objects (not comparable with an
integer).  NaN and infinities are left out. -/
inductive JVal
  | int (i : Int)
  | float (q : Rat)
  | bool (b : Bool)
  | other
  deriving DecidableEq

abbrev Dict := List (PyKey × JVal)

/-- `d[k]` / `k in d` -/
def Dict.get? (d : Dict) (k : PyKey) : Option JVal :=
  match d with
  | [] => none
  | (k', v) :: d => if k' = k then some v else Dict.get? d k

/-- `d[k] = v`: overwrite in place or append. -/
def Dict.set (d : Dict) (k : PyKey) (v : JVal) : Dict :=
  match d with
  | [] => [(k, v)]
  | (k', v') :: d => if k' = k then (k, v) :: d else (k', v') :: Dict.set d k v

/-- `del d[k]` (the key is present whenever the code does this). -/
def Dict.del (d : Dict) (k : PyKey) : Dict :=
  match d with
  | [] => []
  | (k', v') :: d => if k' = k then d else (k', v') :: Dict.del d k

/-- `key in cls` for an enum class.  For a string operand the result depends on the Python version
(a `TypeError` up to 3.11, a lookup by value from 3.12 on), hence the parameter `memStr`. -/
def keyIn (memStr : String → Except PyErr Bool) : PyKey → Except PyErr Bool
  | .enum _ => .ok true
  | .str s => memStr s

/-- `change_dictionary_keys_from_enum_members_to_strings` (truncation_keys.py 26-33), the loop over
the snapshot `list(input_dict.items())`. -/
def toStringsLoop (memStr : String → Except PyErr Bool) : List (PyKey × JVal) → Dict → Except PyErr Dict
  | [], d => .ok d
  | (k, v) :: rest, d =>
    match keyIn memStr k with
    | .error e => .error e
    | .ok false => toStringsLoop memStr rest d
    | .ok true =>
      match k with
      | .enum t => toStringsLoop memStr rest (Dict.del (Dict.set d (.str t.str) v) k)
      | .str _ => .error .attribute        -- `key.value` on a string

def toStrings (memStr : String → Except PyErr Bool) (d : Dict) : Except PyErr Dict :=
  toStringsLoop memStr d d

/-- `change_dictionary_keys_from_strings_to_enum_members` (truncation_keys.py 35-41).  `cls(key)` of
an enum member is that member. -/
def toEnumsLoop : List (PyKey × JVal) → Dict → Except PyErr Dict
  | [], d => .ok d
  | (k, v) :: rest, d =>
    match k with
    | .str s =>
      match TKey.ofStr s with
      | .error e => .error e
      | .ok t => toEnumsLoop rest (Dict.del (Dict.set d (.enum t) v) k)
    | .enum t => toEnumsLoop rest (Dict.del (Dict.set d (.enum t) v) k)

def toEnums (d : Dict) : Except PyErr Dict := toEnumsLoop d d

/-- The three families of truncations. -/
inductive Family | zhz | fcc | eTz
  deriving DecidableEq, Repr

/-- `zhz_key_list`, `fcc_key_list`, `eTz_key_list` (truncation_keys.py 43-62; the string versions in
truncations.py 51-70 list the same keys in the same order). -/
def Family.keys : Family → List TKey
  | .zhz => [.H, .CC, .P]
  | .fcc => [.H, .CC, .S, .P]
  | .eTz => [.H, .CC, .T, .eT, .P]

/-- `key_list_type` (truncation_keys.py 64-74): decided by the number of entries only. -/
def keyListType (len : Nat) : Except PyErr Family :=
  if len = (Family.keys .zhz).length then .ok .zhz
  else if len = (Family.keys .fcc).length then .ok .fcc
  else if len = (Family.keys .eTz).length then .ok .eTz
  else .error .exception

/-- `truncation_maximums` (truncations.py 22-29). -/
def maximum : TKey → Int
  | .H => 6
  | .CC => 6
  | .S => 6
  | .P => 6
  | .T => 1
  | .eT => 8

/-- `value >= 1` -/
def JVal.ge1 : JVal → Except PyErr Bool
  | .int i => .ok (decide (1 ≤ i))
  | .float q => .ok (decide (1 ≤ q))
  | .bool b => .ok b
  | .other => .error .type

/-- `value <= m` -/
def JVal.leInt (m : Int) : JVal → Except PyErr Bool
  | .int i => .ok (decide (i ≤ m))
  | .float q => .ok (decide (q ≤ (m : Rat)))
  | .bool b => .ok (decide ((if b then 1 else 0) ≤ m))
  | .other => .error .type

/-- `__verify_keys` (truncations.py 83-95) -/
def verifyKeys (d : Dict) : List TKey → Except PyErr Unit
  | [] => .ok ()
  | k :: ks =>
    match Dict.get? d (.str k.str) with
    | none => .error .assertion
    | some v =>
      match v.ge1 with
      | .error e => .error e
      | .ok false => .error .assertion
      | .ok true =>
        match v.leInt (maximum k) with
        | .error e => .error e
        | .ok false => .error .assertion
        | .ok true => verifyKeys d ks

/-- The loop `for key in truncations.keys(): if key not in tkeys: raise` (truncations.py 104-108,
122-126, 140-144).  In the eT version building the message refers to the missing attribute
`tkeys.eT_key_list`, so the exception is an `AttributeError`. -/
def checkKnown (memStr : String → Except PyErr Bool) (fam : Family) : Dict → Except PyErr Unit
  | [] => .ok ()
  | (k, _) :: d =>
    match keyIn memStr k with
    | .error e => .error e
    | .ok false => .error (if fam = .eTz then .attribute else .exception)
    | .ok true => checkKnown memStr fam d

/-- `_verify_zhz_truncations`, `_verify_fcc_truncations`, `_verify_eT_z_t_truncations`
(truncations.py 98-149). -/
def verify (memStr : String → Except PyErr Bool) (fam : Family) (d : Dict) : Except PyErr Unit :=
  if d = [] then .error .assertion
  else
    match checkKnown memStr fam d with
    | .error e => .error e
    | .ok () =>
      match toStrings memStr d with
      | .error e => .error e
      | .ok c => verifyKeys c fam.keys

/-- `_save_to_JSON` / `save_trunc_to_JSON` (truncations.py 156-173): the dictionary that is written. -/
def save (memStr : String → Except PyErr Bool) (d : Dict) : Except PyErr Dict := toStrings memStr d

/-- `_load_from_JSON` (truncations.py 175-214). -/
def load (memStr : String → Except PyErr Bool) (file : Dict) : Except PyErr Dict :=
  match toEnums file with
  | .error e => .error e
  | .ok d =>
    match keyListType d.length with
    | .error e => .error e
    | .ok fam =>
      match verify memStr fam d with
      | .error e => .error e
      | .ok () => .ok d

/-- `load_trunc_from_JSON` (truncations.py 217-239): `None` (here `none`) if a non-empty dictionary
is passed, in which case the file is not read. -/
def loadTrunc (memStr : String → Except PyErr Bool) (file : Dict) (dictionary : Option Dict) :
    Except PyErr (Option Dict) :=
  match dictionary with
  | some (_ :: _) => .ok none
  | _ =>
    match load memStr file with
    | .error e => .error e
    | .ok d => .ok (some d)

end Trunc
end TF
