import Verif.Spec.Truncations

/-!
# Reading JSON

The part of JSON (RFC 8259) that a file with truncations needs: one object whose values are integers, `true`, `false`, `null` or strings.  Not in this part, that is `none` below: escapes in
strings, numbers with a fraction or an exponent, arrays, nested objects.
-/

namespace TF.Spec.Json

open TF.Trunc

inductive Tok
  | left | right | colon | comma
  | str (s : List Char)
  | word (w : List Char)
  deriving DecidableEq, Repr

/-- white space of JSON -/
def isSpace (c : Char) : Bool := c == ' ' || c == '\n' || c == '\t' || c == '\r'

/-- characters of numbers and literals -/
def isWord (c : Char) : Bool := c.isAlphanum || c == '-' || c == '+' || c == '.'

/-- a character inside a string without escapes -/
def isPlain (c : Char) : Bool := c != '"' && c != '\\' && decide (32 ≤ c.toNat)

/-- what was read so far of a token -/
inductive Mode
  | idle
  | str (acc : List Char)
  | word (acc : List Char)
  deriving DecidableEq

/-- a character that is not inside a string or a word -/
def start (c : Char) : Option (List Tok × Mode) :=
  if isSpace c then some ([], .idle)
  else if c = '{' then some ([.left], .idle)
  else if c = '}' then some ([.right], .idle)
  else if c = ':' then some ([.colon], .idle)
  else if c = ',' then some ([.comma], .idle)
  else if c = '"' then some ([], .str [])
  else if isWord c then some ([], .word [c])
  else none

def step : Mode → Char → Option (List Tok × Mode)
  | .idle, c => start c
  | .str acc, c => if c = '"' then some ([.str acc], .idle) else if isPlain c then some ([], .str (acc ++ [c])) else none
  | .word acc, c => if isWord c then some ([], .word (acc ++ [c])) else (start c).map fun r => (.word acc :: r.1, r.2)

/-- the tokens of a text -/
def lex : Mode → List Char → Option (List Tok)
  | .idle, [] => some []
  | .word acc, [] => some [.word acc]
  | .str _, [] => none
  | m, c :: l =>
    match step m c with
    | none => none
    | some (t, m') => (lex m' l).map (t ++ ·)

/-- digits without a leading zero -/
def natural (l : List Char) : Option Nat :=
  if l ≠ [] ∧ l.all Char.isDigit ∧ (l.head? = some '0' → l = ['0']) then some (Nat.ofDigitChars 10 l 0) else none

def integer : List Char → Option Int
  | '-' :: l => (natural l).map fun (n : Nat) => -(Int.ofNat n)
  | l => (natural l).map Int.ofNat

/-- the value of a token -/
def value : Tok → Option JVal
  | .str _ => some .other
  | .word w =>
    if w = "true".toList then some (.bool true)
    else if w = "false".toList then some (.bool false)
    else if w = "null".toList then some .other
    else (integer w).map .int
  | _ => none

/-- `"key": value, .. }` -/
def members : List Tok → Option (List (String × JVal))
  | [.str k, .colon, v, .right] => (value v).map fun v => [(String.ofList k, v)]
  | .str k :: .colon :: v :: .comma :: rest =>
    match value v, members rest with
    | some v, some l => some ((String.ofList k, v) :: l)
    | _, _ => none
  | _ => none

/-- the entries of the object, in the order of the text -/
def object (text : List Char) : Option (List (String × JVal)) :=
  match lex .idle text with
  | some [.left, .right] => some []
  | some (.left :: l) => members l
  | _ => none

/-- The dictionary `json.loads` returns: the last value counts if a key is repeated. -/
def loads (text : List Char) : Option Dict := (object text).map fun l => l.foldl (fun d e => Dict.set d (.str e.1) e.2) []

/-- the value of a key: the last one -/
def lastValue (l : List (String × JVal)) (k : String) : Option JVal := l.reverse.lookup k

/-- a text with arbitrary white space between the pieces (and at both ends) -/
inductive Spaced : List (List Char) → List Char → Prop
  | nil {s : List Char} (h : ∀ c ∈ s, isSpace c = true) : Spaced [] s
  | cons {s : List Char} {piece text : List Char} {pieces : List (List Char)} (h : ∀ c ∈ s, isSpace c = true) (ht : Spaced pieces text) :
    Spaced (piece :: pieces) (s ++ piece ++ text)

/-- the pieces of an object after the opening brace -/
def pieces : List (List Char × List Char) → List (List Char)
  | [] => [['}']]
  | [(k, v)] => [k, [':'], v, ['}']]
  | (k, v) :: l => k :: [':'] :: v :: [','] :: pieces l

end TF.Spec.Json
