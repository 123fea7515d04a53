import Verif.Spec.PyRun

/-!
# Running Python source with iterators

The statements of `Verif.Spec.PyRun`, and in addition: optimised expressions of `opt_einsum` can be called, `x.extend(..)` and `x.append(..)` change the list of a variable,
`x = iter(..)` makes an iterator and `next(x)(..)` takes its next item and calls it.  A list or an iterator that is changed must not have a second name.  A name that is not known is
an error before the arguments of the call are evaluated.  Messages to the log do nothing.
-/

namespace TF.Spec.PyIter

open TF.Spec.Source TF.Spec.Tensor TF.Spec.PyRun

variable {R : Type} [CommRing R] [Algebra Rat R]

/-- The variables of a function. -/
abbrev Vars (R : Type) := List Char → Option (Val R)

/-- `e(args)` for an optimised expression: it computes what `np.einsum` computes, for operands of the shapes it was made for. -/
def applyExpression (heap : List (NArr R)) (v : Val R) (args : List (Val R)) : Except PyErr (Val R) :=
  match v with
  | .expression s shapes =>
    match arrays heap args with
    | .error x => .error x
    | .ok xs => if xs.map NArr.shape = shapes then (einsum s xs).map .arr else .error .value
  | _ => .error .type

/-- `next(x)(args)`; the end of the iterator is an exception -/
def callNext (env : Env R) (x : List Char) (args : List Expr) : Except PyErr (Val R × Vars R) :=
  match env.vars x with
  | some (.iter (v :: l)) =>
    match evalList ⟨set env.vars x (.iter l), env.heap⟩ args with
    | .error x => .error x
    | .ok vs => (applyExpression env.heap v vs).map (·, set env.vars x (.iter l))
  | some (.iter []) => .error .exception
  | some _ => .error .type
  | none => .error .name

/-- calls, with the variables after them -/
def evalCall (env : Env R) (f : Expr) (args : List Expr) : Except PyErr (Val R × Vars R) :=
  match f with
  | .call (.word g) [.word x] => if g = "next".toList then callNext env x args else (eval env (.call f args)).map (·, env.vars)
  | .word g =>
    match env.vars g with
    | some (.expression s shapes) =>
      match evalList env args with
      | .error x => .error x
      | .ok vs => (applyExpression env.heap (.expression s shapes) vs).map (·, env.vars)
    | _ => (eval env (.call f args)).map (·, env.vars)
  | _ => (eval env (.call f args)).map (·, env.vars)

mutual

/-- The value of an expression and the variables after it. -/
def evalS (env : Env R) : Expr → Except PyErr (Val R × Vars R)
  | .call f args => evalCall env f args
  | .sum l => evalSumS env l
  | .prod l => evalProdS env l
  | e => (eval env e).map (·, env.vars)

/-- `e1 + e2 - ..` -/
def evalSumS (env : Env R) : List (Bool × Expr) → Except PyErr (Val R × Vars R)
  | [] => .error .type
  | (_, e) :: l =>
    match evalS env e with
    | .error x => .error x
    | .ok r => addAllS ⟨r.2, env.heap⟩ r.1 l

/-- `e1 * e2 / ..` -/
def evalProdS (env : Env R) : List (Bool × Expr) → Except PyErr (Val R × Vars R)
  | [] => .error .type
  | (_, e) :: l =>
    match evalS env e with
    | .error x => .error x
    | .ok r => mulAllS ⟨r.2, env.heap⟩ r.1 l

/-- from left to right -/
def addAllS (env : Env R) (v : Val R) : List (Bool × Expr) → Except PyErr (Val R × Vars R)
  | [] => .ok (v, env.vars)
  | (minus, e) :: l =>
    match evalS env e with
    | .error x => .error x
    | .ok r =>
      match addVal env.heap minus v r.1 with
      | .error x => .error x
      | .ok y => addAllS ⟨r.2, env.heap⟩ y l

/-- from left to right -/
def mulAllS (env : Env R) (v : Val R) : List (Bool × Expr) → Except PyErr (Val R × Vars R)
  | [] => .ok (v, env.vars)
  | (div, e) :: l =>
    match evalS env e with
    | .error x => .error x
    | .ok r =>
      match mulVal env.heap div v r.1 with
      | .error x => .error x
      | .ok y => mulAllS ⟨r.2, env.heap⟩ y l

end

/-- is the expression evaluated with the variables after it, or as in `Verif.Spec.PyRun` -/
def iterates (env : Env R) : Expr → Bool
  | .call (.word f) _ => match env.vars f with | some (.expression _ _) => true | _ => false
  | .call (.call _ _) _ => true
  | .sum _ => true
  | .prod _ => true
  | _ => false

/-- a call of a function that is known, or not a call of a function -/
def callable (known : List Char → Bool) : Expr → Bool
  | .call (.word f) _ => known f
  | _ => true

/-- `iter(args)` -/
def iterCall : Expr → Option (List Expr)
  | .call (.word f) args => if f = "iter".toList then some args else none
  | _ => none

/-- `x.f(args)` for the list of a variable -/
def changeList (l : List (Val R)) (f : List Char) (args : List (Val R)) : Except PyErr (List (Val R)) :=
  if f = "extend".toList then
    match args with
    | [v] => match itemsOf v with | some l' => .ok (l ++ l') | none => .error .type
    | _ => .error .type
  else if f = "append".toList then
    match args with
    | [v] => .ok (l ++ [v])
    | _ => .error .type
  else .error .attribute

/-- the list variable that an expression changes -/
def listCall (env : Env R) : Expr → Option (List Char × List (Val R) × List Char × List Expr)
  | .call (.attr (.word x) f) args => match env.vars x with | some (.list l) => some (x, l, f, args) | _ => none
  | _ => none

/-- `w += y` or `w -= y` for the value of an expression -/
def addTo (env : Env R) (w : List Char) (minus : Bool) (r : Except PyErr (Val R × Vars R)) : Except PyErr (Option (Val R) × Env R) :=
  match env.vars w with
  | some (.ref i) =>
    match r with
    | .error x => .error x
    | .ok r =>
      match env.heap[i]?, array env.heap r.1 with
      | some x, some y =>
        match x.add (if minus then y.smul (-1) else y) with
        | .error x => .error x
        | .ok z => .ok (none, ⟨r.2, env.heap.set i z⟩)
      | _, _ => .error .type
  | some _ => .error .type
  | none => .error .name

/-- `w = iter(args)` -/
def makeIter (env : Env R) (ws : List (List Char)) (args : List Expr) : Except PyErr (Option (Val R) × Env R) :=
  match evalList env args, ws with
  | .error x, _ => .error x
  | .ok [v], [w] => match itemsOf v with | some l => .ok (none, ⟨set env.vars w (.iter l), env.heap⟩) | none => .error .type
  | .ok _, _ => .error .type

mutual

/-- One statement: the value it returns from the function, if it does, and the environment after it. -/
def execS (known : List Char → Bool) (fs : Functions R) (env : Env R) : Stmt → Except PyErr (Option (Val R) × Env R)
  | .expr e =>
    match listCall env e with
    | some (x, l, f, args) =>
      match evalList env args with
      | .error y => .error y
      | .ok vs => (changeList l f vs).map fun l => (none, ⟨set env.vars x (.list l), env.heap⟩)
    | none => if callable known e then exec fs env (.expr e) else .error .name
  | .assign ws e =>
    match iterCall e with
    | some args => makeIter env ws args
    | none => if callable known e then exec fs env (.assign ws e) else .error .name
  | .add w e => if iterates env e then addTo env w false (evalS env e) else exec fs env (.add w e)
  | .sub w e => if iterates env e then addTo env w true (evalS env e) else if callable known e then exec fs env (.sub w e) else .error .name
  | .ret (some e) => if callable known e then exec fs env (.ret (some e)) else .error .name
  | .cond c body orelse =>
    match eval env c with
    | .error x => .error x
    | .ok (.bool true) => execAllS known fs env body
    | .ok (.bool false) => execAllS known fs env orelse
    | .ok _ => .error .type
  | s => exec fs env s

/-- one statement after the other, until one returns -/
def execAllS (known : List Char → Bool) (fs : Functions R) (env : Env R) : List Stmt → Except PyErr (Option (Val R) × Env R)
  | [] => .ok (none, env)
  | s :: l =>
    match execS known fs env s with
    | .error x => .error x
    | .ok (some v, env) => .ok (some v, env)
    | .ok (none, env) => execAllS known fs env l

end

/-- the functions of a module and the names it imports -/
def known (l : List Stmt) (f : List Char) : Bool := (lookup l f).isSome || (globals (R := Rat) l f).isSome

/-- `from ..log_conf import log` -/
def importsLog : Stmt → Bool
  | .imp l => l == [.word "from".toList, .sym '.', .sym '.', .word "log_conf".toList, .word "import".toList, .word "log".toList]
  | _ => false

/-- `import opt_einsum as oe` -/
def importsOe : Stmt → Bool
  | .imp l => l == [.word "import".toList, .word "opt_einsum".toList, .word "as".toList, .word "oe".toList]
  | _ => false

/-- Calls of the functions of a module; calls can be nested `depth` deep. -/
def callS (l : List Stmt) : Nat → Functions R
  | 0 => fun _ _ _ => .error .exception
  | depth + 1 => fun f args heap =>
    match lookup l f with
    | none =>
      if f = "log.warning".toList ∧ l.any importsLog = true then .ok (.none, heap)
      else
        match globals (R := R) l f with
        | some (.imported path name) => (callImported heap path name args).map (·, heap)
        | some _ => .error .type
        | none => .error .name
    | some (ps, b) =>
      if ps.length = args.length then
        match execAllS (known l) (callS l depth) ⟨setAll (globals l) ps args, heap⟩ b with
        | .error x => .error x
        | .ok (v, env) => .ok (v.getD .none, env.heap)
      else .error .type

end TF.Spec.PyIter
