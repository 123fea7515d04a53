import Verif.Model.Residual
import Mathlib.Data.Rat.Defs

/-! # Specification vocabulary for the residual equations -/

namespace TF.Spec.Residual

open TF.Residual

/-- The number a printed prefactor stands for. -/
def value : PTerm → Rat
  | .one => 1
  | .half => 1 / 2
  | .frac a b => a / b
  | .twice a b => a / (2 * b)

/-- decimal digits -/
def decimal (n : Nat) : List Char := Nat.toDigits 10 n

/-- The number a symbolic prefactor stands for: the empty text, `(1/2)`, `(a/t!)`, `(a/t!)*(1/2)`. -/
inductive Denotes : List Char → Rat → Prop
  | empty : Denotes [] 1
  | half : Denotes ['(', '1', '/', '2', ')'] (1 / 2)
  | frac (a t : Nat) : Denotes (['('] ++ decimal a ++ ['/'] ++ decimal t ++ ['!', ')']) (a / t.factorial)
  | fracHalf (a t : Nat) :
      Denotes (['('] ++ decimal a ++ ['/'] ++ decimal t ++ ['!', ')'] ++ ['*', '(', '1', '/', '2', ')'])
        (a / t.factorial * (1 / 2))

/-- The coefficient of the product of a Hamiltonian term with `m` upper and `n` lower labels and a W
operator of order `p - m + n` in the residual of order `p`: `1/m!` and `1/n!` from the Hamiltonian,
`1/(p-m+n)!` from W, and the number of ways to contract `n` of the labels of W. -/
def coefficient (m n p : Nat) : Rat := 1 / (m.factorial * n.factorial * (p - m).factorial : Nat)

/-- The term pairs the Hamiltonian operator `h` with a W operator so that every lower label of `h` is
summed with W and exactly `p` labels stay free, those of `h` and the others of W. -/
structure Closes (p : Nat) (h : HOp) (t : RTerm) : Prop where
  op : t.h = (h.m, h.n)
  summed : t.w.2.1 = h.n
  free : h.m + t.w.1 = p
  order : t.w.2.2 = t.w.1 + t.w.2.1

/-- `x, y, z` as text, separated by commas -/
def commaJoin : List (List Char) → List Char
  | [] => []
  | [a] => a
  | a :: b :: l => a ++ [','] ++ commaJoin (b :: l)

/-- `i_a` for `a` in `[lo, lo + k)` -/
def names (x : Char) (lo k : Nat) : List (List Char) := (List.range k).map fun j => [x, '_'] ++ decimal (lo + j)

/-- The text of a pairing: `h^{i_1,..,i_m}_{k_1,..,k_n} * w^{i_(m+1),..,i_p,k_1,..,k_n}`. -/
def hText (h : HOp) : List Char :=
  ['h'] ++ (if h.m = 0 then [] else ['^', '{'] ++ commaJoin (names 'i' 1 h.m) ++ ['}']) ++
    (if h.m = 0 ∧ h.n = 0 then ['_', '0'] else if h.n = 0 then [] else ['_', '{'] ++ commaJoin (names 'k' 1 h.n) ++ ['}'])

def wText (h : HOp) (p : Nat) : List Char :=
  if p - h.m + h.n = 0 then [] else
    [' ', '*', ' ', 'w', '^', '{'] ++ commaJoin (names 'i' (h.m + 1) (p - h.m) ++ names 'k' 1 h.n) ++ ['}']

/-! ## Execution of the generated functions -/

/-- What the caller passes: `truncation.quadratic`, the other flags by rank, which W operators are not
`None`, and the length of `w_args`. -/
structure Env where
  quadratic : Bool
  fl : Nat → Bool
  present : Nat → Bool
  wlen : Nat

/-- a line `R += ..`; multiplying with `None` raises `TypeError` -/
def runLine (env : Env) (l : Line) : Except PyErr (List Line) :=
  match l.product with
  | none => .ok [l]
  | some (w, _) => if env.present w then .ok [l] else .error .type

def runLines (env : Env) : List Line → Except PyErr (List Line)
  | [] => .ok []
  | l :: ls => match runLine env l, runLines env ls with
    | .error e, _ => .error e
    | .ok _, .error e => .error e
    | .ok a, .ok b => .ok (a ++ b)

/-- The body of the quadratic block: `prev` is the outcome of the `if` an `else:` would belong to
(`none`: there is none and the text is not valid Python, reported as an exception). -/
def runQuad (env : Env) : Option Bool → List (Option Nat × Line) → Except PyErr (List Line)
  | _, [] => .ok []
  | prev, (g, l) :: r =>
    match (match g with
      | some k => (if env.present k then runLine env l else .ok [], some (env.present k))
      | none => match prev with
        | none => (.error .exception, none)
        | some true => (.ok [], none)
        | some false => (runLine env l, none) : Except PyErr (List Line) × Option Bool) with
    | (.error e, _) => .error e
    | (.ok a, prev') => match runQuad env prev' r with
      | .error e => .error e
      | .ok b => .ok (a ++ b)

def runStmt (env : Env) : Stmt → Except PyErr (List Line)
  | .plain l => runLine env l
  | .quad ls => if env.quadratic then runQuad env none ls else .ok []
  | .ifW k ls => if env.present k then runLines env ls else .ok []

def runStmts (env : Env) : List Stmt → Except PyErr (List Line)
  | [] => .ok []
  | s :: ss => match runStmt env s, runStmts env ss with
    | .error e, _ => .error e
    | .ok _, .error e => .error e
    | .ok a, .ok b => .ok (a ++ b)

/-- A call of a generated residual function: the lines `R += ..` executed. -/
def runFn (env : Env) (f : Fn) : Except PyErr (List Line) :=
  if env.wlen < f.unpacked then .error .value
  else if !env.fl f.gate then .error .assertion
  else runStmts env f.body

/-- The contribution of the Hamiltonian term `h` belongs to the residual of order `p`: it is in the
Hamiltonian, has at most `p` upper labels, is included by the truncation when quadratic, and the W
operator it needs was computed. -/
structure Belongs (env : Env) (rank p : Nat) (h : HOp) : Prop where
  rank : h.m + h.n ≤ rank
  upper : h.m ≤ p
  quadratic : h.m + h.n = 2 ∧ h ≠ ⟨1, 1⟩ → env.quadratic = true
  computed : 1 ≤ p - h.m + h.n → env.present (p - h.m + h.n) = true

/-- The residual functions are called with what `compute_w_operators` returned for the same truncation:
always a tuple of six, with `None` for every order not computed (code_w_equations.py 660-676). -/
def afterW (quadratic : Bool) (fl : Nat → Bool) (computed : List Nat) : Env :=
  ⟨quadratic, fl, fun j => decide (j ∈ computed), 6⟩

/-- The line adds the pairing of `h` with W to the residual of order `p`: right coefficient, right
tensors, and in the einsum the electronic chain `a c, c b -> a b`, the summed labels shared by the two
operands, the free labels kept in the result, no letter used for two things. -/
structure Adds (p : Nat) (h : HOp) (l : Line) : Prop where
  coefficient : value l.pref = coefficient h.m h.n p
  op : l.h = (h.m, h.n)
  alone : p - h.m + h.n = 0 → l.product = none
  product : 1 ≤ p - h.m + h.n → ∃ ks is js : List Char,
    l.product = some (p - h.m + h.n, ['a', 'c'] ++ ks ++ is, ['c', 'b'] ++ ks ++ js, ['a', 'b'] ++ is ++ js) ∧
    ks.length = h.n ∧ is.length = h.m ∧ js.length = p - h.m ∧ (['a', 'b', 'c'] ++ ks ++ is ++ js).Nodup

end TF.Spec.Residual
