import Verif.Model.W

/-!
# Model of `termfactory/code_dt_equations.py`

The generated Python text is represented by structured statements, as in `Verif.Model.W`; comments and
docstrings of the generated code are not kept.  The call of the residual function and the final
symmetrisation are represented by the order they are made with.
-/

namespace TF.Dt

open TF.Py TF.Helper TF.W

/-- An operand `t_..` (`der = false`) or `dt_..` (`der = true`) of order `n`. -/
structure Operand where
  der : Bool
  n : Nat
  deriving DecidableEq, Repr

/-- `dt_terms[n].string` (code_dt_equations.py 29-39): like `t_terms`, nine entries, the first `None`. -/
def dtName (n : Nat) : Except PyErr Nat :=
  if n = 0 then .error .attribute else if n ≤ 8 then .ok n else .error .index

/-- the body of the loop of `_generate_disconnected_einsum_operands_list` (code_dt_equations.py 49-54) -/
def operandOf (dtIndex : Nat) (x : Nat × Nat) : Except PyErr Operand :=
  if dtIndex = x.2 then (dtName x.1).map (Operand.mk true) else (tName x.1).map (Operand.mk false)

/-- `_generate_disconnected_einsum_operands_list` (code_dt_equations.py 43-57). -/
def operands (dtIndex : Nat) (tupl : List Nat) : Except PyErr (List Operand) :=
  collect (tupl.zipIdx.map (operandOf dtIndex))

/-- `np.einsum('<subs> -> <out>', <operands>)` -/
structure DEinsum where
  subs : List (List Char)
  out : List Char
  ts : List Operand
  deriving DecidableEq, Repr

/-- `next(optimized_einsum)(<operands>)` -/
structure DCall where
  ts : List Operand
  deriving DecidableEq, Repr

/-- the einsums of one ordering, one per position of the derivative (code_dt_equations.py 92-103) -/
def einsumsOf (len order : Nat) (surf : List (List Char)) (tupl : List Nat) (mode : List (List Char)) :
    Except PyErr (List DEinsum) :=
  match inDims surf mode with
  | .error e => .error e
  | .ok d => collect ((List.range len).map fun i =>
      (operands i tupl).map (DEinsum.mk d ('a' :: 'b' :: modeTags.take order)))

/-- `_generate_disconnected_einsum_function_call_list` (code_dt_equations.py 60-105). -/
def einsumList (partition : List Nat) (order : Nat) : Except PyErr (List DEinsum) :=
  match surfaceIndex partition, modeIndex partition order with
  | .error e, _ => .error e
  | .ok _, .error e => .error e
  | .ok surf, .ok mode =>
    (collect (List.zipWith (einsumsOf partition.length order surf) (combinations partition) mode)).map List.flatten

/-- the calls of one ordering (code_dt_equations.py 126-128) -/
def callsOf (len : Nat) (tupl : List Nat) : Except PyErr (List DCall) :=
  collect ((List.range len).map fun i => (operands i tupl).map DCall.mk)

/-- `_generate_optimized_disconnected_einsum_function_call_list` (code_dt_equations.py 108-130). -/
def callList (partition : List Nat) (_order : Nat) : Except PyErr (List DCall) :=
  (collect ((combinations partition).map (callsOf partition.length))).map List.flatten

/-- A statement `<array> += <1/factorials> * (<items>)`; there is no truncation flag around it. -/
structure DBlock (ι : Type) where
  pref : List Nat
  items : List ι
  deriving DecidableEq, Repr

/-- the body of the loops (code_dt_equations.py 213-236, 317-340) -/
def blockOf {ι : Type} (mk : List Nat → Nat → Except PyErr (List ι)) (order : Nat) (partition : List Nat) :
    Except PyErr (DBlock ι) :=
  match prefactor partition, mk partition order with
  | .error e, _ => .error e
  | .ok _, .error e => .error e
  | .ok pre, .ok items => .ok ⟨pre, items⟩

/-- `_order_<order>_linked_disconnected_terms` / `_order_<order>_un_linked_disconnected_terms`: the
orders unpacked from `t_args` and from `dt_args`, and the statements; `none` is the function whose body
only raises (it unpacks nothing). -/
structure Disconnected (ι : Type) where
  unpacked : List Nat
  blocks : Option (List (DBlock ι))
  deriving DecidableEq, Repr

/-- `_write_linked_disconnected_strings` (code_dt_equations.py 176-241, unpacking at 141-143). -/
def linked {ι : Type} (mk : List Nat → Nat → Except PyErr (List ι)) (order : Nat) : Except PyErr (Disconnected ι) :=
  if order > 6 then .error .notImplemented
  else match collect ((range2 1 order).map tName), collect ((range2 1 order).map dtName) with
    | .error e, _ => .error e
    | .ok _, .error e => .error e
    | .ok names, .ok _ =>
      if order < 2 then .ok ⟨[], none⟩
      else (collect ((linkedPartitions order).map (blockOf mk order))).map fun b => ⟨names, some b⟩

/-- `_write_un_linked_disconnected_strings` (code_dt_equations.py 281-345, unpacking at 252-254). -/
def unlinked {ι : Type} (mk : List Nat → Nat → Except PyErr (List ι)) (order : Nat) : Except PyErr (Disconnected ι) :=
  if order > 6 then .error .notImplemented
  else match collect ((range2 1 order).map tName), collect ((range2 1 order).map dtName) with
    | .error e, _ => .error e
    | .ok _, .error e => .error e
    | .ok names, .ok _ =>
      if order < 4 then .ok ⟨[], none⟩
      else (collect ((unlinkedPartitions order).map (blockOf mk order))).map fun b => ⟨names, some b⟩

/-- `_calculate_order_<order>_dt_amplitude` (code_dt_equations.py 373-461): unpacks `w_1 .. w_order`
(`w_dict[n]` and `w_{tag_str[0:n]}` are the same name), calls the residual function of the order,
subtracts `1/factorial(<epsPref>) * einsum('<epsSubs>->..', w_<order>, epsilon)` and the disconnected
terms; the pairs say whether the linked and the unlinked function is called. -/
structure DtFunction where
  order : Nat
  unpacked : List Nat
  epsPref : Nat
  epsilon : Path
  ifMixed : Bool × Bool
  ifCC : Bool × Bool
  /-- the order passed to `symmetrize_tensor` (455-459) -/
  sym : Nat
  deriving DecidableEq, Repr

/-- the subscripts of the epsilon term (code_dt_equations.py 398, 598-603) -/
def epsilonPath (order : Nat) : Path :=
  ⟨['a' :: 'c' :: modeTags.take order, ['c', 'b']], 'a' :: 'b' :: modeTags.take order, [order, 0]⟩

/-- `w_dict[n]` (code_residual_equations.py 334-343) -/
def wKey (n : Nat) : Except PyErr Nat := if 1 ≤ n ∧ n ≤ 8 then .ok n else .error .key

/-- `_write_dt_amplitude_strings` (code_dt_equations.py 373-461); the optimised variant differs only in
the functions called. -/
def dtFunction (order : Nat) : Except PyErr DtFunction :=
  if order > 6 then .error .notImplemented
  else match collect ((range2 1 (order + 1)).map wKey) with
    | .error e => .error e
    | .ok names => .ok ⟨order, names, order, epsilonPath order,
        if order < 2 then (false, false) else (true, false),
        if order < 2 then (false, false) else if order < 4 then (true, false) else (true, true), order⟩

/-- `_write_master_dt_amplitude_function` (code_dt_equations.py 464-511): the flag
`taylor_series_order_tag[order]` (by number) required by `solve_<..>_equations`; in the optimised
variant the entries `order - 1` of the three lists of paths are used. -/
def solver (order : Nat) : Except PyErr Nat :=
  match tName order, dtName order, orderTags[order]? with
  | .error e, _, _ => .error e
  | .ok _, .error e, _ => .error e
  | .ok _, .ok _, none => .error .index
  | .ok _, .ok _, some _ => .ok order

/-- one string per position of the derivative (code_dt_equations.py 541-555) -/
def pathsOf (len order : Nat) (surf : List (List Char)) (tupl : List Nat) (mode : List (List Char)) :
    Except PyErr (List Path) :=
  (inDims surf mode).map fun d => List.replicate len ⟨d, 'a' :: 'b' :: modeTags.take order, tupl⟩

/-- the expressions of one partition (code_dt_equations.py 531-557) -/
def pathList (partition : List Nat) (order : Nat) : Except PyErr (List Path) :=
  match surfaceIndex partition, modeIndex partition order with
  | .error e, _ => .error e
  | .ok _, .error e => .error e
  | .ok surf, .ok mode =>
    (collect (List.zipWith (pathsOf partition.length order surf) (combinations partition) mode)).map List.flatten

/-- one entry of `_contracted_expressions` (code_dt_equations.py 531-559), and the name of the flag
looked up by the caller -/
def expressionsOf (order : Nat) (p : List Nat) : Except PyErr (Nat × List Path) :=
  match pathList p order, pyMax p with
  | .error e, _ => .error e
  | .ok _, .error e => .error e
  | .ok l, .ok m => match orderTags[m]? with
    | none => .error .index
    | some _ => .ok (m, l)

/-- `_contracted_expressions` (code_dt_equations.py 519-561). -/
def contractedExpressions (ps : List (List Nat)) (order : Nat) : Except PyErr (List (Nat × List Path)) :=
  collect ((ps.filter fun p => decide (p.length ≠ 1)).map (expressionsOf order))

/-- `_write_optimized_epsilon_paths_function` (code_dt_equations.py 582-624): the generated function
appends the expression of an order to one list when the flag of the order is set. -/
def epsilonPaths (maxOrder : Nat) : Except PyErr (List (Nat × Path)) :=
  if maxOrder > 6 then .error .notImplemented
  else .ok ((range2 1 (maxOrder + 1)).map fun k => (k, epsilonPath k))

/-- `_write_optimized_linked_paths_function` (code_dt_equations.py 627-674). -/
def linkedPaths (maxOrder : Nat) : Except PyErr PathsFunction :=
  if maxOrder > 6 then .error .notImplemented
  else (collect ((range2 2 (maxOrder + 1)).map fun k => contractedExpressions (linkedPartitions k) k)).map
    fun l => ⟨none, [] :: l⟩

/-- `_write_optimized_unlinked_paths_function` (code_dt_equations.py 677-733). -/
def unlinkedPaths (maxOrder : Nat) : Except PyErr PathsFunction :=
  if maxOrder > 6 then .error .notImplemented
  else (collect ((range2 4 (maxOrder + 1)).map fun k => contractedExpressions (unlinkedPartitions k) k)).map
    fun l => ⟨some 2, [] :: [] :: [] :: l⟩

/-- the generated module -/
structure DtModule where
  linked : List (Disconnected DEinsum)
  unlinked : List (Disconnected DEinsum)
  fns : List DtFunction
  solvers : List Nat
  linkedOpt : List (Disconnected DCall)
  unlinkedOpt : List (Disconnected DCall)
  fnsOpt : List DtFunction
  solversOpt : List Nat
  epsilonPaths : List (Nat × Path)
  linkedPaths : PathsFunction
  unlinkedPaths : PathsFunction
  deriving DecidableEq, Repr

/-- `generate_dt_amplitude_string` (code_dt_equations.py 737-805). -/
def dtModule (maxOrder : Nat) : Except PyErr DtModule := do
  let orders := range2 1 (maxOrder + 1)
  let a ← collect (orders.map (linked einsumList))
  let b ← collect (orders.map (unlinked einsumList))
  let c ← collect (orders.map dtFunction)
  let d ← collect (orders.map solver)
  let a' ← collect (orders.map (linked callList))
  let b' ← collect (orders.map (unlinked callList))
  let c' ← collect (orders.map dtFunction)
  let d' ← collect (orders.map solver)
  let e ← epsilonPaths maxOrder
  let f ← linkedPaths maxOrder
  let g ← unlinkedPaths maxOrder
  return ⟨a, b, c, d, a', b', c', d', e, f, g⟩

/-! ## Rendering (used to compare with reference outputs) -/

def Operand.render (o : Operand) : String := (if o.der then "d" else "") ++ tString o.n

def DEinsum.render (e : DEinsum) : String :=
  "np.einsum('" ++ String.intercalate ", " (e.subs.map String.ofList) ++ "->" ++ String.ofList e.out ++ "', " ++
    String.intercalate ", " (e.ts.map Operand.render) ++ ")"

def DCall.render (c : DCall) : String :=
  "next(optimized_einsum)(" ++ String.intercalate ", " (c.ts.map Operand.render) ++ ")"

def DBlock.render {ι : Type} (r : ι → String) (array : String) (b : DBlock ι) : String :=
  "    " ++ array ++ " += " ++ renderPref b.pref ++ " * (\n        " ++
    String.intercalate " +\n        " (b.items.map r) ++ "\n    )\n"

end TF.Dt
