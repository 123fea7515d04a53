import Verif.Model.Helper
import Verif.Model.Truncations
import Verif.Model.FullCC.Latex

/-!
# Model of `termfactory/code_w_equations.py` and `termfactory/latex_w_equations.py`

The generated Python text is represented by structured statements (`WBlock`, `WFunction`, ...); the
functions `render...` give the text.  The docstrings and comments of the generated code are not kept.
-/

namespace TF.W

open TF.Py TF.Helper

/-! ## Python code for W: one partition -/

/-- `tag_str` (code_w_equations.py 184) -/
def modeTags : List Char := ['i', 'j', 'k', 'l', 'm', 'n', 'o', 'p']

/-- `einsum_surface_tags` (code_w_equations.py 183) -/
def surfaceTags : List Char := ['a', 'c', 'd', 'e', 'f', 'g', 'h', 'i']

/-- `taylor_series_order_tag` (code_w_equations.py 181) -/
def orderTags : List String := ["", "singles", "doubles", "triples", "quadruples", "quintuples", "sextuples"]

/-- `max(tupl)` -/
def pyMax (l : List Nat) : Except PyErr Nat :=
  match l.max? with
  | none => .error .value
  | some m => .ok m

/-- The factorials in the denominator written by `_generate_w_operator_prefactor`
(code_w_equations.py 148-177), branch by branch. -/
def prefactor (tupl : List Nat) : Except PyErr (List Nat) :=
  match pyMax tupl with
  | .error e => .error e
  | .ok mx =>
    if mx = 1 ∧ tupl.length = 1 then .ok []
    else if mx = 1 then .ok [tupl.length]
    else if tupl.length = 1 then .ok [mx]
    else .ok (tupl.length :: tupl.filter fun n => decide (n ≠ 1))

/-- text of a prefactor (code_w_equations.py 157-177) -/
def renderPref : List Nat → String
  | [] => ""
  | [n] => "1/factorial(" ++ toString n ++ ")"
  | l => "1/(" ++ String.intercalate " * " (l.map fun n => "factorial(" ++ toString n ++ ")") ++ ")"

/-- `t_terms[n].string` (code_w_equations.py 135-145): the name of the amplitude with `n` modes; index
0 is `None`, which has no attribute `string`. -/
def tName (n : Nat) : Except PyErr Nat :=
  if n = 0 then .error .attribute else if n ≤ 8 then .ok n else .error .index

/-- all results, or the first error (evaluation of a list comprehension) -/
def collect {β : Type} : List (Except PyErr β) → Except PyErr (List β)
  | [] => .ok []
  | .error e :: _ => .error e
  | .ok b :: l => (collect l).map (b :: ·)

/-- `_generate_surface_index` (code_w_equations.py 188-199).  For an empty partition Python computes
`max_i = -1` and would index from the end; partitions are never empty, the model returns an error. -/
def surfaceIndex (partition : List Nat) : Except PyErr (List (List Char)) :=
  if partition.length - 1 > 7 then .error .notImplemented
  else match surfaceTags[partition.length - 1]? with
    | none => .error .index
    | some c => .ok (((List.range (partition.length - 1)).map fun i => slice surfaceTags i (i + 2)) ++ [[c, 'b']])

/-- `''.join([N_list.pop(0) for _ in range(n)])` for one `n` after the other
(code_w_equations.py 213-214); `pop` from an empty list raises `IndexError`. -/
def popAll : List Char → List Nat → Except PyErr (List (List Char))
  | _, [] => .ok []
  | ls, n :: ns => if ls.length < n then .error .index else (popAll (ls.drop n) ns).map (ls.take n :: ·)

/-- the distinct orderings of a partition, sorted -/
def combinations (partition : List Nat) : List (List Nat) := uniquePermutations lexLe partition

/-- `_generate_mode_index` (code_w_equations.py 202-216). -/
def modeIndex (partition : List Nat) (order : Nat) : Except PyErr (List (List (List Char))) :=
  if order > 6 then .error .notImplemented
  else collect ((combinations partition).map fun comb => popAll (modeTags.take order) comb)

/-- A call `np.einsum('<subs> -> <out>', <operands>)`: the subscripts of the operands, the subscripts
of the result, the orders of the amplitudes. -/
structure Einsum where
  subs : List (List Char)
  out : List Char
  ts : List Nat
  deriving DecidableEq, Repr

/-- A call `next(optimized_einsum)(<operands>)`. -/
structure Call where
  ts : List Nat
  deriving DecidableEq, Repr

/-- A call `oe.contract_expression('<subs> -> <out>', <shapes>)`; a shape `(A, A, N, ..)` is
represented by its number of `N`s. -/
structure Path where
  subs : List (List Char)
  out : List Char
  shapes : List Nat
  deriving DecidableEq, Repr

/-- `[surf_index[a]+mode_index[i][a] for a in range(len(surf_index))]` (code_w_equations.py 237, 770) -/
def inDims (surf mode : List (List Char)) : Except PyErr (List (List Char)) :=
  if mode.length < surf.length then .error .index else .ok (List.zipWith (· ++ ·) surf mode)

/-- one string of `_w_einsum_list` (code_w_equations.py 234-244) -/
def einsumOf (order : Nat) (surf : List (List Char)) (tupl : List Nat) (mode : List (List Char)) : Except PyErr Einsum :=
  match inDims surf mode, collect (tupl.map tName) with
  | .error e, _ => .error e
  | .ok _, .error e => .error e
  | .ok d, .ok names => .ok ⟨d, 'a' :: 'b' :: modeTags.take order, names⟩

/-- `_w_einsum_list` (code_w_equations.py 219-246). -/
def einsumList (partition : List Nat) (order : Nat) : Except PyErr (List Einsum) :=
  match surfaceIndex partition, modeIndex partition order with
  | .error e, _ => .error e
  | .ok _, .error e => .error e
  | .ok surf, .ok mode => collect (List.zipWith (einsumOf order surf) (combinations partition) mode)

/-- `_optimized_w_einsum_list` (code_w_equations.py 249-268). -/
def callList (partition : List Nat) (_order : Nat) : Except PyErr (List Call) :=
  collect ((combinations partition).map fun tupl => (collect (tupl.map tName)).map Call.mk)

/-- one string of `_contracted_expressions` (code_w_equations.py 767-779) -/
def pathOf (order : Nat) (surf : List (List Char)) (tupl : List Nat) (mode : List (List Char)) : Except PyErr Path :=
  (inDims surf mode).map fun d => ⟨d, 'a' :: 'b' :: modeTags.take order, tupl⟩

/-- the strings of `_contracted_expressions` for one partition (code_w_equations.py 757-779) -/
def pathList (partition : List Nat) (order : Nat) : Except PyErr (List Path) :=
  match surfaceIndex partition, modeIndex partition order with
  | .error e, _ => .error e
  | .ok _, .error e => .error e
  | .ok surf, .ok mode => collect (List.zipWith (pathOf order surf) (combinations partition) mode)

/-! ## Contributions of one order -/

/-- One contribution: `if truncation.<gate>:` (when there is one) followed by
`W += <1/factorials> * (<items>)`, or by `W += <1/factorials> * <amplitude>` when `direct` is given. -/
structure WBlock (ι : Type) where
  gate : Option Nat
  pref : List Nat
  direct : Option Nat
  items : List ι
  deriving DecidableEq, Repr

/-- The loop body common to `_generate_vemx_contributions` and `_generate_vecc_contributions`
(code_w_equations.py 335-391, 461-516); `mk` is `_w_einsum_list` or `_optimized_w_einsum_list`. -/
def blockOf {ι : Type} (mk : List Nat → Nat → Except PyErr (List ι)) (order : Nat) (partition : List Nat) :
    Except PyErr (WBlock ι) :=
  match pyMax partition, prefactor partition with
  | .error e, _ => .error e
  | .ok _, .error e => .error e
  | .ok mx, .ok pre =>
    match orderTags[mx]? with
    | none => .error .index
    | some _ =>
      let gate := if mx ≥ 2 then some mx else none
      if partition.length = 1 then (tName (partition.headD 0)).map fun n => ⟨gate, pre, some n, []⟩
      else (mk partition order).map fun items => ⟨gate, pre, none, items⟩

/-- The generated function `_add_order_<order>_vemx_contributions` (code_w_equations.py 273-395) or
`.._vecc_contributions` (399-520): the amplitudes named by the unpacking line `t_i, t_ij, .. = t_args`
and the contributions; `none` is the function whose body only raises (it unpacks nothing). -/
structure WContributions (ι : Type) where
  unpacked : List Nat
  blocks : Option (List (WBlock ι))
  deriving DecidableEq, Repr

/-- `_generate_vemx_contributions` (code_w_equations.py 313-395, unpacking at 280). -/
def vemx {ι : Type} (mk : List Nat → Nat → Except PyErr (List ι)) (order : Nat) : Except PyErr (WContributions ι) :=
  if order > 6 then .error .notImplemented
  else match collect ((range2 1 order).map tName) with
    | .error e => .error e
    | .ok names =>
      if order < 2 then .ok ⟨[], none⟩
      else (collect ((linkedPartitions order).map (blockOf mk order))).map fun b => ⟨names, some b⟩

/-- `_generate_vecc_contributions` (code_w_equations.py 439-520, unpacking at 406). -/
def vecc {ι : Type} (mk : List Nat → Nat → Except PyErr (List ι)) (order : Nat) : Except PyErr (WContributions ι) :=
  if order > 6 then .error .notImplemented
  else match collect ((range2 1 (order - 1)).map tName) with
    | .error e => .error e
    | .ok names =>
      if order < 4 then .ok ⟨[], none⟩
      else (collect ((unlinkedPartitions order).map (blockOf mk order))).map fun b => ⟨names, some b⟩

/-! ## The W function of one order -/

/-- The generated function `_calculate_order_<order>_w_operator` (code_w_equations.py 524-633).  For
order 1 it is `W_1 += t_i`, represented by `veci = (none, [], 1)` and no calls; otherwise the VECI line
is under `if truncation.<..>`, and the calls made under `if ansatz.VE_MIXED:` and
`elif ansatz.VECC:` say whether the vemx and the vecc function of the order are called. -/
structure WFunction where
  order : Nat
  unpacked : List Nat
  veciGate : Option Nat
  veciPref : List Nat
  veci : Nat
  /-- (vemx, vecc) called when `ansatz.VE_MIXED` -/
  ifMixed : Bool × Bool
  /-- (vemx, vecc) called when not `ansatz.VE_MIXED` but `ansatz.VECC` -/
  ifCC : Bool × Bool
  /-- the order passed to `symmetrize_tensor`; order 1 returns without the call (577-586) -/
  sym : Option Nat
  deriving DecidableEq, Repr

/-- `_write_w_function_strings` (code_w_equations.py 554-633, unpacking at 531). -/
def wFunction (order : Nat) : Except PyErr WFunction :=
  if order > 6 then .error .notImplemented
  else match collect ((range2 1 (order + 1)).map tName) with
    | .error e => .error e
    | .ok names =>
      if order = 0 then .error .exception
      else if order = 1 then .ok ⟨1, names, none, [], 1, (false, false), (false, false), none⟩
      else match prefactor [order], tName order with
        | .error e, _ => .error e
        | .ok _, .error e => .error e
        | .ok pre, .ok n =>
          .ok ⟨order, names, some order, pre, n, (true, false), (true, if order < 4 then false else true), some order⟩

/-! ## The optimised paths -/

/-- `_contracted_expressions` (code_w_equations.py 743-783): for every partition of more than one part
its maximum and its expressions. -/
def contractedExpressions (ps : List (List Nat)) (order : Nat) : Except PyErr (List (Nat × List Path)) :=
  collect ((ps.filter fun p => decide (p.length ≠ 1)).map fun p =>
    match pathList p order, pyMax p with
    | .error e, _ => .error e
    | .ok _, .error e => .error e
    | .ok l, .ok m => match orderTags[m]? with
      | none => .error .index
      | some _ => .ok (m, l))

/-- The generated `compute_optimized_vemx_paths` / `compute_optimized_vecc_paths`: `lists` are the
entries of the returned list (`[]` literals are empty), each a list of
`if truncation.<gate>: order_k_list.extend([..])`; `guard` is the flag without which six empty lists
are returned at once. -/
structure PathsFunction where
  guard : Option Nat
  lists : List (List (Nat × List Path))
  deriving DecidableEq, Repr

/-- `_write_optimized_vemx_paths_function` (code_w_equations.py 786-840). -/
def vemxPaths (maxOrder : Nat) : Except PyErr PathsFunction :=
  if maxOrder > 6 then .error .notImplemented
  else (collect ((range2 2 (maxOrder + 1)).map fun k => contractedExpressions (linkedPartitions k) k)).map
    fun l => ⟨none, [] :: l⟩

/-- `_write_optimized_vecc_paths_function` (code_w_equations.py 843-897). -/
def veccPaths (maxOrder : Nat) : Except PyErr PathsFunction :=
  if maxOrder > 6 then .error .notImplemented
  else (collect ((range2 4 (maxOrder + 1)).map fun k => contractedExpressions (unlinkedPartitions k) k)).map
    fun l => ⟨some 2, [] :: [] :: [] :: l⟩

/-! ## The module -/

/-- What `_write_master_w_compute_function` (code_w_equations.py 637-734) writes, both variants: the
orders computed unconditionally, then the flags tested one after the other, each with the order
computed when it is set (when it is not set the function returns); the last flag makes the function
raise.  `maxOrder` is not used by the code.  In the optimised variant the function of order `k`
receives the entries `k - 1` of the two lists of paths. -/
structure Master where
  required : Nat
  first : List Nat
  steps : List (Nat × Nat)
  unsupported : Nat
  deriving DecidableEq, Repr

/-- code_w_equations.py 637-734 -/
def master (_maxOrder : Nat) : Master := ⟨1, [1, 2, 3], [(2, 4), (3, 5), (4, 6)], 5⟩

/-- `generate_w_operators_string` (code_w_equations.py 901-966): the functions of the module. -/
structure WModule where
  vemx : List (WContributions Einsum)
  vecc : List (WContributions Einsum)
  fns : List WFunction
  master : Master
  vemxOpt : List (WContributions Call)
  veccOpt : List (WContributions Call)
  fnsOpt : List WFunction
  masterOpt : Master
  vemxPaths : PathsFunction
  veccPaths : PathsFunction
  deriving DecidableEq, Repr

/-- `generate_w_operators_string` (code_w_equations.py 901-966). -/
def wModule (maxOrder : Nat) : Except PyErr WModule := do
  let orders := range2 1 (maxOrder + 1)
  let a ← collect (orders.map (vemx einsumList))
  let b ← collect (orders.map (vecc einsumList))
  let c ← collect (orders.map wFunction)
  let d ← collect (orders.map (vemx callList))
  let e ← collect (orders.map (vecc callList))
  let f ← collect (orders.map wFunction)
  let g ← vemxPaths maxOrder
  let h ← veccPaths maxOrder
  return ⟨a, b, c, master maxOrder, d, e, f, master maxOrder, g, h⟩

/-! ## Rendering (used to compare with reference outputs) -/

def tString (n : Nat) : String := "t_" ++ String.ofList (modeTags.take n)

def Einsum.render (e : Einsum) : String :=
  "np.einsum('" ++ String.intercalate ", " (e.subs.map String.ofList) ++ "->" ++ String.ofList e.out ++ "', " ++
    String.intercalate ", " (e.ts.map tString) ++ ")"

def Call.render (c : Call) : String :=
  "next(optimized_einsum)(" ++ String.intercalate ", " (c.ts.map tString) ++ ")"

def Path.render (p : Path) : String :=
  "oe.contract_expression('" ++ String.intercalate ", " (p.subs.map String.ofList) ++ "->" ++ String.ofList p.out ++ "', " ++
    String.intercalate ", " (p.shapes.map fun n => "(" ++ String.intercalate ", " (["A", "A"] ++ List.replicate n "N") ++ ")") ++ "),\n"

def WBlock.render {ι : Type} (r : ι → String) (order : Nat) (b : WBlock ι) : String :=
  let name := (orderTags[b.gate.getD 1]?).getD ""
  let ind := match b.gate with | none => "    " | some _ => "        "
  let w := "W_" ++ toString order ++ " += " ++ renderPref b.pref ++ " * "
  "    # " ++ name.toUpper ++ " contribution\n" ++
  (match b.gate with | none => "" | some _ => "    if truncation." ++ name ++ ":\n") ++
  (match b.direct with
    | some n => ind ++ w ++ tString n ++ "\n"
    | none =>
      if b.gate.isNone then ind ++ w ++ "(" ++ String.intercalate " + " (b.items.map r) ++ ")\n"
      else ind ++ w ++ "(\n" ++ ind ++ "    " ++ String.intercalate (" +\n" ++ ind ++ "    ") (b.items.map r) ++ "\n" ++ ind ++ ")\n")

/-! ## LaTeX for W -/

/-- `count_items` (latex_w_equations.py 25-31): the distinct items in order of first appearance with
their multiplicities. -/
def countItems {α : Type} [DecidableEq α] : Nat → List α → List (α × Nat)
  | 0, _ => []
  | _, [] => []
  | fuel + 1, a :: l => (a, (a :: l).count a) :: countItems fuel (l.filter fun x => decide (x ≠ a))

/-- A product of powers of amplitudes with its prefactor `\frac{1}{k!*..}` (`pref` lists the `k`s). -/
structure LatexTerm (α : Type) where
  pref : List Nat
  factors : List (α × Nat)
  deriving DecidableEq, Repr

/-- `generate_w_prefactor` (latex_w_equations.py 34-51) and the product (107-113, 224-243) -/
def latexTerm {α : Type} [DecidableEq α] (sub : List α) : LatexTerm α :=
  let d := countItems sub.length sub
  ⟨(d.map Prod.snd).filter fun k => decide (k ≠ 1), d⟩

/-- `ground_state_w_equations_latex` (latex_w_equations.py 76-133): for every order its equation (the
lines `W^0 = 1`, the header and the symmetriser `\hat{S}`, applied to every order above 1, are text
only). -/
def groundLatex (maxOrder : Nat) : List (Nat × List (LatexTerm Nat)) :=
  (range2 1 (maxOrder + 1)).map fun n => (n, (partitions n).reverse.map latexTerm)

/-- `generate_labels_on_w` (latex_w_equations.py 54-73); the final `sorted(key=sum)` is stable. -/
def labelsOnW (order : Nat) (excited : Bool) : List (Nat × Nat) :=
  sortBy (fun a b => decide (a.1 + a.2 ≤ b.1 + b.2))
    ((range2 1 (order + 1)).flatMap fun n =>
      (n, 0) :: (if n = 1 ∨ excited = false then [] else (range2 1 n).reverse.map fun i => (i, n - i)))

/-- `generate_t_terms_group` (latex_w_equations.py 137-191) for a label of rank at least 1: the same
code as in latex_full_cc.py 1400-1443 with the comparison of the sums swapped. -/
def tTermsGroup (sop : SetOrder (List (Nat × Nat))) (w : Nat × Nat) : List (List (Nat × Nat)) :=
  CC.lhsGroups sop ⟨"", w.1 + w.2, w.2, w.1⟩

/-- `excited_state_w_equations_latex` (latex_w_equations.py 194-246): for every label the printed
products.  The entry for `(1, 0)` is the fixed text `\bt^1` (211-214); single amplitudes with a lower
index are skipped (222-223). -/
def excitedLatex (sop : SetOrder (List (Nat × Nat))) (maxOrder : Nat) :
    List ((Nat × Nat) × List (LatexTerm (Nat × Nat))) :=
  (labelsOnW maxOrder true).map fun w =>
    if w = (1, 0) then (w, [latexTerm [(1, 0)]])
    else (w, ((tTermsGroup sop w).reverse.filter fun sub =>
      !(decide (sub.length = 1) && decide ((sub.headD (0, 0)).2 ≠ 0))).map latexTerm)

/-- the text of `generate_w_prefactor` (latex_w_equations.py 41-51) -/
def renderLatexPref (l : List Nat) : String :=
  if l = [] then "" else "\\frac{1}{" ++ String.intercalate "*" (l.map fun k => toString k ++ "!") ++ "}"

/-- the text of one product of a ground state equation (latex_w_equations.py 103-113) -/
def LatexTerm.render (t : LatexTerm Nat) : String :=
  renderLatexPref t.pref ++ String.join (t.factors.map fun f =>
    if f.2 = 1 then "\\bt^{" ++ toString f.1 ++ "}" else "(\\bt^{" ++ toString f.1 ++ "})^" ++ toString f.2)

/-- `''.join(fp.readlines()[0:k])` (latex_w_equations.py 252-256): the characters of the first `k`
lines. -/
def keepLines : Nat → List Char → List Char
  | 0, _ => []
  | _ + 1, [] => []
  | k + 1, c :: cs => c :: keepLines (if c = '\n' then k else k + 1) cs

/-- The output file of `excited_state_w_equations_latex` (latex_w_equations.py 248-265): a missing file
becomes the equations alone; of an existing file the first 29 lines are kept as a header and the
equations and `\end{document}` are put after them. -/
def writeExcited (old : Option (List Char)) (code : List Char) : List Char :=
  match old with
  | none => code
  | some text => keepLines 29 text ++ code ++ "\\end{document}".toList

/-! ## The legacy enumeration -/

/-- `_next_list` (code_w_equations.py 20-37) -/
def nextList (lst : List Nat) (n : Nat) : List (List Nat) :=
  if lst.count 1 = 0 then [lst]
  else if lst.count 1 = n ∨ lst.count 1 = 1 then [slice lst 1 (lst.length - 1) ++ [lst.getLastD 0 + 1]]
  else [slice lst 1 (lst.length - 2) ++ [lst.getD (lst.length - 2) 0 + 1] ++ [lst.getLastD 0],
        slice lst 1 (lst.length - 1) ++ [lst.getLastD 0 + 1]]

/-- The loop of `_generate_t_lists` (code_w_equations.py 46-51); `n + 1` rounds are enough
(`tListsLoop_done`). -/
def tListsLoop (n : Nat) : Nat → List (List Nat) → List (List Nat)
  | 0, lst => lst
  | fuel + 1, lst =>
    let current := nextList (lst.getLastD []) n
    if current = [lst.getLastD []] then lst else tListsLoop n fuel (lst ++ current)

/-- The reordering loop of `_generate_t_lists` (code_w_equations.py 56-68). -/
def tListsSort : List (List Nat) → List (List Nat) → Nat → List (List Nat)
  | [], result, _ => result
  | sub :: l, result, prev =>
    if sub.foldl max 0 ≥ prev then tListsSort l (result ++ [sub]) (sub.foldl max 0)
    else tListsSort l (sub :: result) prev

/-- `_generate_t_lists` (code_w_equations.py 40-70).  For `n = 0` the call `max([])` raises. -/
def tLists (n : Nat) : Except PyErr (List (List Nat)) :=
  if n = 0 then .error .value
  else
    let lst := tListsLoop n (n + 1) [List.replicate n 1]
    .ok (tListsSort lst [] ((lst.headD []).foldl max 0)).reverse

end TF.W
