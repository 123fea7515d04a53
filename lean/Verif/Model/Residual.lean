import Verif.Model.W
import Mathlib.Data.Nat.Factorial.Basic

/-!
# Model of `termfactory/code_residual_equations.py`

The prefactors and the labels are modelled as the character strings the code builds and parses; the
generated Python text is represented by structured statements.
-/

namespace TF.Residual

open TF.Py
open TF.W (collect orderTags)

/-- A term of the Hamiltonian: `m` upper and `n` lower labels (`general_operator_namedtuple`, of which
the name and the rank are not read by this file). -/
structure HOp where
  m : Nat
  n : Nat
  deriving DecidableEq, Repr

/-- `generate_hamiltonian_operator` (code_residual_equations.py 44-65). -/
def hamiltonian (maxRank : Nat) : List HOp :=
  (List.range (maxRank + 1)).flatMap fun m => (List.range (maxRank + 1 - m)).map fun n => ⟨m, n⟩

/-! ## Prefactors -/

/-- `f"{n}"` for an integer -/
def num (n : Nat) : List Char := Nat.toDigits 10 n

/-- `int(s)` for strings of decimal digits; anything else raises `ValueError` (signs, blanks and
underscores, which `int` accepts as well, never occur). -/
def parseInt (s : List Char) : Except PyErr Nat :=
  if s ≠ [] ∧ s.all Char.isDigit then .ok (Nat.ofDigitChars 10 s 0) else .error .value

/-- `sub in s` -/
def occurs (sub : List Char) : List Char → Bool
  | [] => sub.isEmpty
  | c :: s => sub.isPrefixOf (c :: s) || occurs sub s

/-- `"*(1/2)"` -/
def timesHalf : List Char := ['*', '(', '1', '/', '2', ')']

/-- `"(1/2)"` -/
def oneHalf : List Char := ['(', '1', '/', '2', ')']

/-- `extract_numerator_denominator_from_string` (code_residual_equations.py 70-83).  Unpacking
`s.split("/")` into two names raises `ValueError` unless there is exactly one `/`. -/
def extract (s : List Char) : Except PyErr (Nat × Nat) :=
  let s := if s.contains '*' then s.takeWhile (fun c => decide (c ≠ '*')) else s
  let s := s.filter fun c => decide (c ≠ '(') && decide (c ≠ ')')
  if s.count '/' ≠ 1 then .error .value
  else
    let numer := s.takeWhile fun c => decide (c ≠ '/')
    let denom := ((s.dropWhile fun c => decide (c ≠ '/')).drop 1).takeWhile fun c => decide (c ≠ '!')
    match parseInt numer, parseInt denom with
    | .error e, _ => .error e
    | .ok _, .error e => .error e
    | .ok a, .ok b => .ok (a, b)

/-- `simplified_prefactor` (code_residual_equations.py 86-111), after `extract`; `pre[0] = ..` on a
string raises `TypeError`. -/
def simplifyWith (pre : List Char) (numerator denominator : Nat) : Except PyErr (List Char) :=
  if pre = timesHalf then .ok ['1', '/', '2']
  else if denominator = numerator then
    if occurs timesHalf pre then
      if denominator = 1 ∨ denominator = 2 then .ok oneHalf
      else .ok (['('] ++ num numerator ++ ['/', '(', '2', '*'] ++ num denominator ++ [')', ')'])
    else if denominator = 1 ∨ denominator = 2 then .ok [] else .ok pre
  else if occurs timesHalf pre then
    if numerator % 2 = 0 then .error .type
    else .ok (pre.take 3 ++ ['(', '2', '*'] ++ slice pre 3 (pre.length - 6) ++ [')'])
  else .ok pre

/-- `simplified_prefactor` (code_residual_equations.py 86-111). -/
def simplified (pre : List Char) : Except PyErr (List Char) :=
  match extract pre with
  | .error e => .error e
  | .ok (a, b) => simplifyWith pre a b

/-- the fraction chosen at code_residual_equations.py 141-151 -/
def fraction (n i : Nat) : List Char :=
  if i = 1 ∨ n = 1 then ['('] ++ num (i + n) ++ ['/'] ++ num (i + n) ++ ['!', ')']
  else if n > 1 ∧ i > 1 then ['('] ++ num (List.range (i + n)).sum ++ ['/'] ++ num (i + n) ++ ['!', ')']
  else if n = 0 ∨ i = 0 then ['(', '1', '/'] ++ num (i + n) ++ ['!', ')']
  else []

/-- `construct_prefactor` (code_residual_equations.py 114-162). -/
def constructPrefactor (h : HOp) (p : Nat) (simplify : Bool) : Except PyErr (List Char) :=
  if h.m > p then .ok []
  else if p - h.m + h.n = 0 then .ok (if h.m = 2 then oneHalf else [])
  else
    let pre := fraction h.n (p - h.m) ++ (if h.m = 2 then timesHalf else [])
    if simplify then simplified pre else .ok pre

/-! ## Labels -/

/-- the labels `x_a,` for `a` in a list -/
def labels (x : Char) (l : List Nat) : List Char := l.flatMap fun a => [x, '_'] ++ num a ++ [',']

/-- `construct_upper_w_label` (code_residual_equations.py 167-184). -/
def upperW (h : HOp) (p : Nat) : Except PyErr (List Char) :=
  if (h.m = p ∧ h.n = 0) ∨ h.m > p then .ok []
  else
    let w := ['^', '{'] ++ labels 'i' (range2 (h.m + 1) (p + 1)) ++ labels 'k' (range2 1 (h.n + 1))
    if w = ['^', '{'] then .error .assertion else .ok (w.dropLast ++ ['}'])

/-- `construct_upper_h_label` (code_residual_equations.py 187-200). -/
def upperH (h : HOp) (p : Nat) : List Char :=
  if h.m = 0 ∨ h.m > p then []
  else (['^', '{'] ++ labels 'i' (range2 1 (h.m + 1))).dropLast ++ ['}']

/-- `construct_lower_h_label` (code_residual_equations.py 203-222). -/
def lowerH (h : HOp) (p : Nat) : List Char :=
  if h.m = 0 ∧ h.n = 0 then ['_', '0']
  else if h.n = 0 ∨ h.m > p then []
  else (['_', '{'] ++ labels 'k' (range2 1 (h.n + 1))).dropLast ++ ['}']

/-! ## Terms -/

/-- The text returned by `generate_p_term`: `1.0`, `0.5`, `(a/b)` or `(a/(2*b))`. -/
inductive PTerm where
  | one
  | half
  | frac (a b : Nat)
  | twice (a b : Nat)
  deriving DecidableEq, Repr

/-- `generate_p_term` (code_residual_equations.py 227-243). -/
def pTerm (s : List Char) : Except PyErr PTerm :=
  if s = [] then .ok .one
  else if s = oneHalf ++ [' ', '*', ' '] then .ok .half
  else match extract s with
    | .error e => .error e
    | .ok (a, b) =>
      if occurs ['/', '(', '2', '*'] s then .ok (.twice a (Nat.factorial b)) else .ok (.frac a (Nat.factorial b))

/-- `generate_h_term` (code_residual_equations.py 246-252): `(max_i, max_k)`. -/
def hTerm (s : List Char) : Nat × Nat :=
  if s.contains '0' then (0, 0) else (s.count 'i', s.count 'k')

/-- `generate_w_term` (code_residual_equations.py 255-262): `(max_i, max_k, order)`. -/
def wTerm (s : List Char) : Nat × Nat × Nat :=
  if s = [] then (0, 0, 0) else (s.count 'i', s.count 'k', s.count 'i' + s.count 'k')

/-- `residual_term` (code_residual_equations.py 20-30). -/
structure RTerm where
  pref : PTerm
  h : Nat × Nat
  w : Nat × Nat × Nat
  deriving DecidableEq, Repr

/-- The body of the loop of `generate_residual_string_list` (code_residual_equations.py 280-302);
`none` is `continue`. -/
def termOf (p : Nat) (h : HOp) : Except PyErr (Option (List Char × RTerm)) :=
  let hResult := ['h'] ++ upperH h p ++ lowerH h p
  match upperW h p with
  | .error e => .error e
  | .ok w =>
    let wResult := 'w' :: w
    match constructPrefactor h p true with
    | .error e => .error e
    | .ok pre =>
      if hResult = ['h'] then .ok none
      else match pTerm pre with
        | .error e => .error e
        | .ok pt =>
          .ok (some ((if pre = [] then [] else pre ++ [' ', '*', ' ']) ++ hResult ++
              (if wResult = ['w'] then [] else [' ', '*', ' '] ++ wResult),
            ⟨pt, hTerm hResult, wTerm wResult⟩))

/-- `generate_residual_string_list` (code_residual_equations.py 267-304): the strings and the terms. -/
def residualList (hs : List HOp) (order : Nat) : Except PyErr (List (List Char × RTerm)) :=
  (collect (hs.map (termOf order))).map fun l => l.filterMap id

/-- `generate_residual_data` (code_residual_equations.py 307-320): for every order the strings and the
terms. -/
def residualData (hs : List HOp) (maxOrder : Nat) : Except PyErr (List (List (List Char × RTerm))) :=
  collect ((List.range (maxOrder + 1)).map (residualList hs))

/-! ## Python code -/

/-- keys of `h_dict` (code_residual_equations.py 325-332) -/
def hKeys : List (Nat × Nat) := [(0, 0), (0, 1), (1, 0), (1, 1), (0, 2), (2, 0)]

/-- `h_dict[..]`; the name is represented by its key -/
def hName (k : Nat × Nat) : Except PyErr (Nat × Nat) := if hKeys.contains k then .ok k else .error .key

/-- `w_dict[n]` (code_residual_equations.py 334-343); the name is represented by the order -/
def wName (n : Nat) : Except PyErr Nat := if 1 ≤ n ∧ n ≤ 8 then .ok n else .error .key

/-- `i_list` (code_residual_equations.py 346) -/
def iLetters : List Char := ['i', 'j', 'k', 'l']

/-- `k_list` (code_residual_equations.py 347) -/
def kLetters : List Char := ['m', 'n']

/-- A line `R += <pref> * <h>` (`product = none`) or
`R += <pref> * np.einsum('<hDims>,<wDims>-><out>', <h>, <w>)`. -/
structure Line where
  pref : PTerm
  h : Nat × Nat
  product : Option (Nat × List Char × List Char × List Char)
  deriving DecidableEq, Repr

/-- `_generate_einsum_h_indices` (code_residual_equations.py 350-359) -/
def hDims (t : RTerm) : List Char := ['a', 'c'] ++ kLetters.take t.h.2 ++ iLetters.take t.h.1

/-- `_generate_einsum_w_indices` (code_residual_equations.py 361-370) -/
def wDims (t : RTerm) : List Char := ['c', 'b'] ++ kLetters.take t.w.2.1 ++ slice iLetters t.h.1 (t.h.1 + t.w.1)

/-- `_generate_einsum_ouput_indices` (code_residual_equations.py 373-376) -/
def outDims (t : RTerm) : List Char := ['a', 'b'] ++ iLetters.take (t.h.1 + t.w.1)

/-- `_residual_terms_einsum` (code_residual_equations.py 379-403).  The comparison
`term.prefactor == 1.0` compares a string with a number and is never true, so the prefactor is always
written. -/
def lineOf (t : RTerm) : Except PyErr Line :=
  match hName t.h with
  | .error e => .error e
  | .ok h =>
    if t.w.2.2 = 0 then .ok ⟨t.pref, h, none⟩
    else (wName t.w.2.2).map fun w => ⟨t.pref, h, some (w, hDims t, wDims t, outDims t)⟩

/-- Statements of a residual function.  In `quad` (the block under `if truncation.quadratic:`) the
guard `some k` is `if w_k is not None:` and `none` is `else:`. -/
inductive Stmt where
  | plain (l : Line)
  | quad (ls : List (Option Nat × Line))
  | ifW (k : Nat) (ls : List Line)
  deriving DecidableEq, Repr

/-- `(term.h.max_i >= 2) or (term.h.max_k >= 2)` (code_residual_equations.py 442, 461) -/
def isQuad (t : RTerm) : Bool := decide (t.h.1 ≥ 2) || decide (t.h.2 ≥ 2)

/-- one entry of the quadratic block (code_residual_equations.py 466-478) -/
def quadEntry (t : RTerm) : Except PyErr (Option Nat × Line) :=
  if t.w.2.2 ≥ 2 then
    match wName t.w.2.2, lineOf t with
    | .error e, _ => .error e
    | .ok _, .error e => .error e
    | .ok k, .ok l => .ok (some k, l)
  else (lineOf t).map fun l => (none, l)

/-- The loop of `write_residual_function_string` (code_residual_equations.py 447-490): `printed` is
`already_printed_list`; terms are compared by value (`residual_term.__eq__`). -/
def stmts (all : List RTerm) : List RTerm → List RTerm → Except PyErr (List Stmt)
  | [], _ => .ok []
  | t :: ts, printed =>
    if printed.contains t then stmts all ts printed
    else if t.w.2.2 = 0 ∨ t.w.2.2 = 1 then
      match lineOf t, stmts all ts (printed ++ [t]) with
      | .error e, _ => .error e
      | .ok _, .error e => .error e
      | .ok l, .ok r => .ok (.plain l :: r)
    else if isQuad t then
      let quads := all.filter isQuad
      match collect (quads.map quadEntry), stmts all ts (printed ++ quads) with
      | .error e, _ => .error e
      | .ok _, .error e => .error e
      | .ok ls, .ok r => .ok (.quad ls :: r)
    else
      let same := all.filter fun s => decide (s.w.2.2 = t.w.2.2)
      match wName t.w.2.2 with
      | .error e => .error e
      | .ok k => match collect (same.map lineOf), stmts all ts (printed ++ same) with
        | .error e, _ => .error e
        | .ok _, .error e => .error e
        | .ok ls, .ok r => .ok (.ifW k ls :: r)

/-- The generated `calculate_order_<order>_residual`: the number of W operators named by the unpacking
line, the number of `N`s in the shape of `R`, the truncation flag asserted, the body. -/
structure Fn where
  order : Nat
  unpacked : Nat
  gate : Nat
  body : List Stmt
  deriving DecidableEq, Repr

/-- `write_residual_function_string` (code_residual_equations.py 411-493). -/
def writeFn (terms : List RTerm) (order : Nat) : Except PyErr Fn :=
  match collect ((range2 1 (order + 3)).map wName) with
  | .error e => .error e
  | .ok names =>
    let gate := if order ≤ 1 then 1 else order
    match orderTags[gate]? with
    | none => .error .index
    | some _ => (stmts terms terms []).map fun b => ⟨order, names.length, gate, b⟩

/-- one call in `generate_python_code_for_residual_functions` (code_residual_equations.py 502) -/
def fnFor (data : List (List (List Char × RTerm))) (k : Nat) : Except PyErr Fn :=
  match data[k]? with
  | none => .error .index
  | some l => writeFn (l.map Prod.snd) k

/-- `generate_residual_equations_file` (code_residual_equations.py 506-531) with
`generate_python_code_for_residual_functions` (496-503): the functions of the module. -/
def residualModule (maxOrder maxRank : Nat) : Except PyErr (List Fn) :=
  match residualData (hamiltonian maxRank) maxOrder with
  | .error e => .error e
  | .ok data => collect ((List.range (maxOrder + 1)).map (fnFor data))

end TF.Residual
