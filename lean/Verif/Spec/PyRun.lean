import Verif.Spec.Source
import Verif.Spec.Tensor
import Verif.Model.Truncations
import Mathlib.Algebra.Algebra.Basic

/-!
# Running Python source

What the statements of `Verif.Spec.Source` do.  The names imported by a module are known in all its functions.  Numbers are exact.  Arrays created by the module are objects that `+=` changes, so that a
function changes the arrays it is given; the arrays of the caller are never changed by the fragment.  Conditions are truth values.  Dictionaries
and strings with replacement fields are read but not evaluated, and entries of containers are not changed: running such code is an error here.
Lists that are changed and iterators are in `Verif.Spec.PyIter`.
-/

namespace TF.Spec.PyRun

open TF.Spec.Source TF.Spec.Tensor

/-- An array: its shape and its entries. -/
structure NArr (R : Type) where
  shape : List Nat
  get : Arr R

/-- The values. -/
inductive Val (R : Type)
  | none
  | bool (b : Bool)
  | num (q : Rat)
  | str (s : List Char)
  | tuple (l : List (Val R))
  | list (l : List (Val R))
  /-- an array of the caller or the value of an expression -/
  | arr (x : NArr R)
  /-- the array with this number that the module has created -/
  | ref (i : Nat)
  /-- a dictionary of arrays whose keys are pairs of numbers -/
  | dict (d : Nat × Nat → Option (NArr R))
  /-- an object with truth values as attributes and methods that raise or return nothing -/
  | obj (attrs : List Char → Option Bool) (methods : List Char → Option (Except PyErr Unit))
  /-- a name imported from this module -/
  | imported (path : List Tok) (name : List Char)
  /-- an argument `w=v` -/
  | kw (w : List Char) (v : Val R)
  /-- `oe.contract_expression(s, shapes..)` -/
  | expression (s : List Char) (shapes : List (List Nat))
  /-- an iterator over a list: the items that are left -/
  | iter (l : List (Val R))

/-- The variables of a function and the arrays created so far. -/
structure Env (R : Type) where
  vars : List Char → Option (Val R)
  heap : List (NArr R)

variable {R : Type} [CommRing R] [Algebra Rat R]

/-! ## Expressions -/

/-- decimal numbers -/
def number (w : List Char) : Option Rat :=
  let i := w.takeWhile Char.isDigit
  if i = [] then Option.none
  else
    match w.dropWhile Char.isDigit with
    | [] => some (Nat.ofDigitChars 10 i 0)
    | c :: l => if c = '.' ∧ l.all Char.isDigit = true then some (Nat.ofDigitChars 10 i 0 + Nat.ofDigitChars 10 l 0 / 10 ^ l.length) else Option.none

/-- the array a value stands for -/
def array (heap : List (NArr R)) : Val R → Option (NArr R)
  | .arr x => some x
  | .ref i => heap[i]?
  | _ => Option.none

def NArr.smul (q : Rat) (x : NArr R) : NArr R := ⟨x.shape, fun v => q • x.get v⟩

/-- arrays of different shapes are not added here -/
def NArr.add (x y : NArr R) : Except PyErr (NArr R) :=
  if x.shape = y.shape then .ok ⟨x.shape, fun v => x.get v + y.get v⟩ else .error .value

/-- `a * b`, or `a / b` -/
def mulVal (heap : List (NArr R)) (div : Bool) : Val R → Val R → Except PyErr (Val R)
  | .num p, .num q => if div then if q = 0 then .error .exception else .ok (.num (p / q)) else .ok (.num (p * q))
  | .num p, y =>
    match array heap y with
    | some y => if div then .error .type else .ok (.arr (y.smul p))
    | Option.none => .error .type
  | x, .num q =>
    match array heap x with
    | some x => if div then if q = 0 then .error .exception else .ok (.arr (x.smul (1 / q))) else .ok (.arr (x.smul q))
    | Option.none => .error .type
  | _, _ => .error .type

/-- `a + b`, or `a - b` -/
def addVal (heap : List (NArr R)) (minus : Bool) : Val R → Val R → Except PyErr (Val R)
  | .num p, .num q => .ok (.num (if minus then p - q else p + q))
  | x, y =>
    match array heap x, array heap y with
    | some x, some y => (x.add (if minus then y.smul (-1) else y)).map .arr
    | _, _ => .error .type

/-- `s1, s2, .. -> out`; spaces mean nothing -/
def subscripts (s : List Char) : Option (List (List Char) × List Char) :=
  let t := s.filter fun c => decide (c ≠ ' ')
  match t.dropWhile fun c => decide (c ≠ '-') with
  | '-' :: '>' :: out => some ((t.takeWhile fun c => decide (c ≠ '-')).splitOn ',', out)
  | _ => Option.none

/-- the letters with the lengths of their axes -/
def axes (subs : List (List Char)) (ops : List (NArr R)) : List (Char × Nat) := (List.zipWith (fun s x => s.zip x.shape) subs ops).flatten

/-- the length of the axis of a letter -/
def dim (ax : List (Char × Nat)) (c : Char) : Nat := (ax.lookup c).getD 0

/-- `np.einsum(s, ops..)`: a letter for every axis of every operand, the same letter only for axes of the same length, the letters after the
arrow are different and occur before it.  Entry `v` of the result is the sum over the other letters. -/
def einsum (s : List Char) (ops : List (NArr R)) : Except PyErr (NArr R) :=
  match subscripts s with
  | Option.none => .error .value
  | some (subs, out) =>
    if subs.map List.length = ops.map (fun x => x.shape.length) ∧ (∀ p ∈ axes subs ops, p.2 = dim (axes subs ops) p.1) ∧ out.Nodup ∧
        ∀ c ∈ out, c ∈ subs.flatten then
      .ok ⟨out.map (dim (axes subs ops)), fun v =>
        sumOver (dim (axes subs ops)) (subs.flatten.filter fun c => decide (c ∉ out)).dedup (fun c => v.getD (out.idxOf c) 0)
          fun σ => (List.zipWith (fun (x : NArr R) s => x.get (s.map σ)) ops subs).prod⟩
    else .error .value

/-- the operands of a call -/
def arrays (heap : List (NArr R)) : List (Val R) → Except PyErr (List (NArr R))
  | [] => .ok []
  | v :: l =>
    match array heap v with
    | Option.none => .error .type
    | some x => (arrays heap l).map (x :: ·)

/-- calls of functions that are not in the module -/
def callBuiltin (env : Env R) (f : List Char) (args : List (Val R)) : Except PyErr (Val R) :=
  if f = "einsum".toList then
    match args with
    | .str s :: ops => (arrays env.heap ops).bind fun xs => (einsum s xs).map .arr
    | _ => .error .type
  else .error .attribute

/-- a natural number -/
def natural (q : Rat) : Option Nat := if q.den = 1 ∧ 0 ≤ q then some q.num.toNat else Option.none

/-- Functions of other modules: `math.factorial`, and the function `symmetrize_tensor(N, x, order=k)` of the module `symmetrize` next to the generated modules,
which is the sum over the permutations of the `k` last axes. -/
def callImported (heap : List (NArr R)) (path : List Tok) (name : List Char) (args : List (Val R)) : Except PyErr (Val R) :=
  if path = [.word "math".toList] ∧ name = "factorial".toList then
    match args with
    | [.num q] => match natural q with | some n => .ok (.num n.factorial) | Option.none => .error .value
    | _ => .error .type
  else if path = [.sym '.', .word "symmetrize".toList] ∧ name = "symmetrize_tensor".toList then
    match args with
    | [.num n, x, .kw w (.num k)] =>
      match natural n, array heap x, natural k with
      | some n, some x, some k =>
        if w = "order".toList then if x.shape.length = k + 2 ∧ x.shape.drop 2 = List.replicate k n then .ok (.arr ⟨x.shape, symSum k x.get⟩) else .error .value
        else .error .type
      | _, _, _ => .error .type
    | _ => .error .type
  else .error .name

/-- `e.f(args)` -/
def callMethod (v : Val R) (f : List Char) (args : List (Val R)) : Except PyErr (Val R) :=
  match v with
  | .obj _ m =>
    match m f with
    | some r => if args.isEmpty then r.map fun _ => .none else .error .type
    | Option.none => .error .attribute
  | _ => .error .attribute

/-- the length of an axis -/
def lengthOf : Val R → Option Nat
  | .num q => if q.den = 1 ∧ 0 ≤ q then some q.num.toNat else Option.none
  | _ => Option.none

/-- the lengths of the axes of a new array -/
def shapeOf : Val R → Option (List Nat)
  | .tuple l => l.mapM lengthOf
  | v => (lengthOf v).map fun n => [n]

/-- calls of functions of `opt_einsum` -/
def callOe (f : List Char) (args : List (Val R)) : Except PyErr (Val R) :=
  if f = "contract_expression".toList then
    match args with
    | .str s :: shapes =>
      match shapes.mapM shapeOf with
      | some l => .ok (.expression s l)
      | Option.none => .error .type
    | _ => .error .type
  else .error .attribute

/-- `v[args]`: entries of dictionaries and lists -/
def getIndex (v : Val R) (args : List (Val R)) : Except PyErr (Val R) :=
  match v, args with
  | .list l, [.num q] =>
    match natural q with
    | some i => match l[i]? with | some v => .ok v | Option.none => .error .index
    | Option.none => .error .type
  | .dict d, [.tuple [.num p, .num q]] =>
    if p.den = 1 ∧ q.den = 1 ∧ 0 ≤ p ∧ 0 ≤ q then
      match d (p.num.toNat, q.num.toNat) with
      | some x => .ok (.arr x)
      | Option.none => .error .key
    else .error .key
  | .dict _, [_] => .error .key
  | _, _ => .error .type

mutual

/-- The value of an expression without calls of functions of the module. -/
def eval (env : Env R) : Expr → Except PyErr (Val R)
  | .word w =>
    match number w with
    | some q => .ok (.num q)
    | Option.none =>
      match env.vars w with
      | some v => .ok v
      | Option.none => .error .name
  | .str s => .ok (.str s)
  | .attr e w =>
    match eval env e with
    | .error x => .error x
    | .ok (.obj a _) => match a w with | some b => .ok (.bool b) | Option.none => .error .attribute
    | .ok _ => .error .attribute
  | .call f args =>
    match f with
    | .attr (.word m) g =>
      match evalList env args with
      | .error x => .error x
      | .ok vs =>
        if m = "np".toList then callBuiltin env g vs
        else match env.vars m with | some v => callMethod v g vs | Option.none => if m = "oe".toList then callOe g vs else .error .name
    | .word g =>
      match evalList env args with
      | .error x => .error x
      | .ok vs => match env.vars g with | some (.imported path name) => callImported env.heap path name vs | some _ => .error .type | Option.none => .error .name
    | _ => .error .type
  | .index e args =>
    match eval env e, evalList env args with
    | .error x, _ => .error x
    | _, .error x => .error x
    | .ok v, .ok vs => getIndex v vs
  | .tuple l => (evalList env l).map .tuple
  | .list l => (evalList env l).map .list
  | .sum l => evalSum env l
  | .prod l => evalProd env l
  | .kw w e =>
    match eval env e with
    | .error x => .error x
    | .ok v => .ok (.kw w v)
  | .fmt _ => .error .type
  | .dict _ => .error .type
  | .not e =>
    match eval env e with
    | .error x => .error x
    | .ok (.bool b) => .ok (.bool (!b))
    | .ok _ => .error .type
  | .notNone e =>
    match eval env e with
    | .error x => .error x
    | .ok .none => .ok (.bool false)
    | .ok _ => .ok (.bool true)

def evalList (env : Env R) : List Expr → Except PyErr (List (Val R))
  | [] => .ok []
  | e :: l =>
    match eval env e with
    | .error x => .error x
    | .ok v => (evalList env l).map (v :: ·)

/-- `e1 + e2 - ..` -/
def evalSum (env : Env R) : List (Bool × Expr) → Except PyErr (Val R)
  | [] => .error .type
  | (_, e) :: l =>
    match eval env e with
    | .error x => .error x
    | .ok v => addAll env v l

/-- `e1 * e2 / ..` -/
def evalProd (env : Env R) : List (Bool × Expr) → Except PyErr (Val R)
  | [] => .error .type
  | (_, e) :: l =>
    match eval env e with
    | .error x => .error x
    | .ok v => mulAll env v l

/-- from left to right -/
def addAll (env : Env R) (v : Val R) : List (Bool × Expr) → Except PyErr (Val R)
  | [] => .ok v
  | (minus, e) :: l =>
    match eval env e with
    | .error x => .error x
    | .ok y =>
      match addVal env.heap minus v y with
      | .error x => .error x
      | .ok r => addAll env r l

/-- from left to right -/
def mulAll (env : Env R) (v : Val R) : List (Bool × Expr) → Except PyErr (Val R)
  | [] => .ok v
  | (div, e) :: l =>
    match eval env e with
    | .error x => .error x
    | .ok y =>
      match mulVal env.heap div v y with
      | .error x => .error x
      | .ok r => mulAll env r l

end

/-! ## Statements -/

/-- the argument `shape` of `np.zeros` -/
def shapeArg : List Expr → Option Expr
  | [.kw w e, .kw _ _] => if w = "shape".toList then some e else Option.none
  | [e, .kw _ _] => some e
  | _ => Option.none

/-- The functions that can be called: name, or `module.name`; arguments, arrays before; result, arrays after. -/
abbrev Functions (R : Type) := List Char → List (Val R) → List (NArr R) → Except PyErr (Val R × List (NArr R))

/-- The value of an expression that is not part of another one; it may be a call of `np.zeros`, of a function of the module,
of an imported function or of a function of an imported module. -/
def evalTop (fs : Functions R) (env : Env R) (e : Expr) : Except PyErr (Val R × List (NArr R)) :=
  match e with
  | .call (.attr (.word m) f) args =>
    if m = "np".toList ∧ f = "zeros".toList then
      match shapeArg args with
      | Option.none => .error .type
      | some e =>
        match eval env e with
        | .error x => .error x
        | .ok v =>
          match shapeOf v with
          | some s => .ok (.ref env.heap.length, env.heap ++ [⟨s, fun _ => 0⟩])
          | Option.none => .error .type
    else
      match env.vars m with
      | some (.imported _ _) =>
        match evalList env args with
        | .error x => .error x
        | .ok vs => fs (m ++ '.' :: f) vs env.heap
      | _ => (eval env e).map (·, env.heap)
  | .call (.word f) args =>
    match evalList env args with
    | .error x => .error x
    | .ok vs => fs f vs env.heap
  | e => (eval env e).map (·, env.heap)

def set (vars : List Char → Option (Val R)) (w : List Char) (v : Val R) : List Char → Option (Val R) :=
  fun w' => if w' = w then some v else vars w'

def setAll (vars : List Char → Option (Val R)) : List (List Char) → List (Val R) → List Char → Option (Val R)
  | w :: ws, v :: vs => setAll (set vars w v) ws vs
  | _, _ => vars

/-- the items of a tuple or list -/
def itemsOf : Val R → Option (List (Val R))
  | .tuple l => some l
  | .list l => some l
  | _ => Option.none

/-- The exception a `raise` raises. -/
def raised : Expr → PyErr
  | .call (.word f) _ => if f = "NotImplementedError".toList then .notImplemented else .exception
  | _ => .exception

mutual

/-- One statement: the value it returns from the function, if it does, and the environment after it. -/
def exec (fs : Functions R) (env : Env R) : Stmt → Except PyErr (Option (Val R) × Env R)
  | .pass => .ok (Option.none, env)
  | .doc => .ok (Option.none, env)
  | .imp _ => .error .exception
  | .expr e =>
    match evalTop fs env e with
    | .error x => .error x
    | .ok r => .ok (Option.none, ⟨env.vars, r.2⟩)
  | .assign ws e =>
    match evalTop fs env e with
    | .error x => .error x
    | .ok r =>
      match ws with
      | [w] => .ok (Option.none, ⟨set env.vars w r.1, r.2⟩)
      | ws =>
        match itemsOf r.1 with
        | some l => if l.length = ws.length then .ok (Option.none, ⟨setAll env.vars ws l, r.2⟩) else .error .value
        | Option.none => .error .type
  | .unpack ws w e =>
    match evalTop fs env e with
    | .error x => .error x
    | .ok r =>
      match itemsOf r.1 with
      | some l =>
        if ws.length ≤ l.length then .ok (Option.none, ⟨set (setAll env.vars ws l) w (.list (l.drop ws.length)), r.2⟩) else .error .value
      | Option.none => .error .type
  | .add w e =>
    match env.vars w with
    | some (.ref i) =>
      match eval env e with
      | .error x => .error x
      | .ok v =>
        match env.heap[i]?, array env.heap v with
        | some x, some y =>
          match x.add y with
          | .error x => .error x
          | .ok z => .ok (Option.none, ⟨env.vars, env.heap.set i z⟩)
        | _, _ => .error .type
    | some _ => .error .type
    | Option.none => .error .name
  | .sub w e =>
    match env.vars w with
    | some (.ref i) =>
      match evalTop fs env e with
      | .error x => .error x
      | .ok r =>
        match r.2[i]?, array r.2 r.1 with
        | some x, some y =>
          match x.add (y.smul (-1)) with
          | .error x => .error x
          | .ok z => .ok (Option.none, ⟨env.vars, r.2.set i z⟩)
        | _, _ => .error .type
    | some _ => .error .type
    | Option.none => .error .name
  | .setItem _ _ _ => .error .type
  | .assert c _ =>
    match eval env c with
    | .error x => .error x
    | .ok (.bool true) => .ok (Option.none, env)
    | .ok (.bool false) => .error .assertion
    | .ok _ => .error .type
  | .ret Option.none => .ok (some .none, env)
  | .ret (some e) =>
    match evalTop fs env e with
    | .error x => .error x
    | .ok r => .ok (some r.1, ⟨env.vars, r.2⟩)
  | .raise e => .error (raised e)
  | .cond c body orelse =>
    match eval env c with
    | .error x => .error x
    | .ok (.bool true) => execAll fs env body
    | .ok (.bool false) => execAll fs env orelse
    | .ok _ => .error .type
  | .orelse _ => .error .type
  | .defn _ _ _ => .error .type

/-- one statement after the other, until one returns -/
def execAll (fs : Functions R) (env : Env R) : List Stmt → Except PyErr (Option (Val R) × Env R)
  | [] => .ok (Option.none, env)
  | s :: l =>
    match exec fs env s with
    | .error x => .error x
    | .ok (some v, env) => .ok (some v, env)
    | .ok (Option.none, env) => execAll fs env l

end

/-- the definition of a function with this name -/
def definitionOf (f : List Char) : Stmt → Option (List (List Char) × List Stmt)
  | .defn g ps b => if g = f then some (ps, b) else Option.none
  | _ => Option.none

/-- the last definition with this name -/
def lookup (l : List Stmt) (f : List Char) : Option (List (List Char) × List Stmt) := l.reverse.findSome? (definitionOf f)

/-- `from .. import name` -/
def importOf (w : List Char) : Stmt → Option (Val R)
  | .imp l =>
    match l.take 1, l.dropLast.getLast?, l.getLast? with
    | [t], some u, some (.word x) =>
      if t = .word "from".toList ∧ u = .word "import".toList ∧ x = w then some (.imported (l.drop 1).dropLast.dropLast x) else Option.none
    | _, _, _ => Option.none
  | _ => Option.none

/-- The names known in all functions of a module (without its functions). -/
def globals (l : List Stmt) (w : List Char) : Option (Val R) := if w = "None".toList then some .none else l.findSome? (importOf w)

/-- Calls of the functions of a module; calls can be nested `depth` deep. -/
def call (l : List Stmt) : Nat → Functions R
  | 0 => fun _ _ _ => .error .exception
  | depth + 1 => fun f args heap =>
    match lookup l f with
    | Option.none =>
      match globals (R := R) l f with
      | some (.imported path name) => (callImported heap path name args).map (·, heap)
      | some _ => .error .type
      | Option.none => .error .name
    | some (ps, b) =>
      if ps.length = args.length then
        match execAll (call l depth) ⟨setAll (globals l) ps args, heap⟩ b with
        | .error x => .error x
        | .ok (v, env) => .ok (v.getD .none, env.heap)
      else .error .type

/-- `import numpy as np` -/
def importsNumpy : Stmt → Bool
  | .imp l => l == [.word "import".toList, .word "numpy".toList, .word "as".toList, .word "np".toList]
  | _ => false

/-- A call from outside of a function that returns an array; the functions need numpy. -/
def callArray (l : List Stmt) (depth : Nat) (f : List Char) (args : List (Val R)) : Except PyErr (NArr R) :=
  if l.any importsNumpy then
    match call l depth f args [] with
    | .error x => .error x
    | .ok r =>
      match array r.2 r.1 with
      | some x => .ok x
      | Option.none => .error .type
  else .error .name

end TF.Spec.PyRun
