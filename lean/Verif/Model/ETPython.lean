import Verif.Model.ET
import Verif.Model.FullCC.Python

/-!
# Model of `code_eT_zhz.py`: the Python code of the e^T z_t equations

The left z operator is `None` at both calls of `_filter_out_valid_eTz_terms` (1699, 1729), see
`Verif.Model.ET`.  `log`, `print` and `old_print_wrapper` are left out.  The functions 399-426,
761-882 and 1358-1392 are not called or only print.  `_simplify_eT_zhz_python_prefactor` (436-493) only
changes a text that is thrown away (1101-1108).  A file write is a returned value.
-/
namespace TF.ETPy

open TF.Py
open TF.CC (Op HOp Series collect summationIdx unlinkedIdx glue hamiltonianTag taylorTag tabs charsLe omegaOps)
open TF.Helper (uniquePermutations)
open TF.ET (Mode Term T HC Z eTaylor filterTerms)

/-! ## Labels -/

/-- `offset_dict` (code_eT_zhz.py 287-291) -/
structure Off where
  s : Nat
  u : Nat
  upperH : List Char
  lowerH : List Char
  upperZ : List Char
  lowerZ : List Char
  deriving DecidableEq, Repr

/-- `letters[a:a + k]` -/
def at' (l : List Char) (a k : Nat) : List Char := slice l a (a + k)

/-- the subscript part of `_build_t_term_python_labels` (code_eT_zhz.py 234-255) -/
def tLower (t : T) (o : Off) : (List Char × List Char) × Off :=
  if t.n > 0 then
    let h := at' summationIdx o.s t.n_h
    let z := at' summationIdx (o.s + t.n_h) t.n_r
    ((h ++ z, at' unlinkedIdx o.u t.n_lhs),
      { o with upperH := o.upperH ++ h, upperZ := o.upperZ ++ z, s := o.s + (t.n_h + t.n_r), u := o.u + t.n_lhs })
  else (([], []), o)

/-- the superscript part (code_eT_zhz.py 257-278) -/
def tUpper (t : T) (o : Off) : (List Char × List Char) × Off :=
  if t.m > 0 then
    let h := at' summationIdx o.s t.m_h
    let z := at' summationIdx (o.s + t.m_h) t.m_r
    ((h ++ z, at' unlinkedIdx o.u t.m_lhs),
      { o with lowerH := o.lowerH ++ h, lowerZ := o.lowerZ ++ z, s := o.s + (t.m_h + t.m_r), u := o.u + t.m_lhs })
  else (([], []), o)

/-- `_build_t_term_python_labels` (code_eT_zhz.py 228-280) -/
def tLabels (t : T) (o : Off) : (List Char × List Char) × Off :=
  let a := tLower t o
  let b := tUpper t a.2
  ((a.1.1 ++ b.1.1, a.1.2 ++ b.1.2), b.2)

/-- `_build_t_term_python_group` (code_eT_zhz.py 282-306) -/
def tGroup : List T → Off → List (List Char × List Char) × Off
  | [], o => ([], o)
  | t :: ts, o =>
    let a := tLabels t o
    let b := tGroup ts a.2
    (a.1 :: b.1, b.2)

/-- superscript part of `_build_h_term_python_labels` (code_eT_zhz.py 191-207) -/
def hUpper (h : HC) (o : Off) : (List Char × List Char) × Off :=
  if h.m > 0 then
    let z := at' summationIdx o.s h.m_r
    ((z, at' unlinkedIdx o.u h.m_lhs),
      { o with lowerZ := o.lowerZ ++ z, s := o.s + h.m_r, u := o.u + h.m_lhs })
  else (([], []), o)

/-- subscript part (code_eT_zhz.py 209-225) -/
def hLower (h : HC) (o : Off) : (List Char × List Char) × Off :=
  if h.n > 0 then
    let z := at' summationIdx o.s h.n_r
    ((z, at' unlinkedIdx o.u h.n_lhs),
      { o with upperZ := o.upperZ ++ z, s := o.s + h.n_r, u := o.u + h.n_lhs })
  else (([], []), o)

/-- `_build_h_term_python_labels` (code_eT_zhz.py 178-226) -/
def hLabels (h : HC) (o : Off) : Except PyErr ((List Char × List Char) × Off) :=
  if h.rank = 0 then
    if o.upperH ++ o.lowerH = [] then .ok (([], []), o) else .error .assertion
  else
    let a := hUpper h o
    let b := hLower h a.2
    .ok ((o.upperH ++ o.lowerH ++ a.1.1 ++ b.1.1, a.1.2 ++ b.1.2), b.2)

/-- `_build_z_term_python_labels` (code_eT_zhz.py 146-176) -/
def zLabels (z : Z) (o : Off) : Except PyErr (List Char × List Char) :=
  if z.rank = 0 then
    if o.upperZ ++ o.lowerZ = [] then .ok ([], []) else .error .assertion
  else
    let a := if z.m > 0 then at' unlinkedIdx o.u z.m_lhs else []
    let u := if z.m > 0 then o.u + z.m_lhs else o.u
    let b := if z.n > 0 then at' unlinkedIdx u z.n_lhs else []
    .ok (o.upperZ ++ o.lowerZ, a ++ b)

/-- `_eT_zhz_einsum_vibrational_components` and its `_lhs` twin (code_eT_zhz.py 309-395) -/
def vibrational (ts : List T) (h : HC) (z : Z) : Except PyErr (List (List Char) × List Char) :=
  let t := tGroup ts ⟨0, 0, [], [], [], []⟩
  match hLabels h t.2 with
  | .error e => .error e
  | .ok hl =>
    match zLabels z hl.2 with
    | .error e => .error e
    | .ok zl => .ok (t.1.map (fun p => p.1 ++ p.2) ++ [hl.1.1 ++ hl.1.2, zl.1 ++ zl.2],
        (t.1.map Prod.snd).flatten ++ hl.1.2 ++ zl.2)

/-- `_eT_zhz_einsum_electronic_components` and its `_lhs` twin with `b_loop_flag=True` (the only value
passed; code_eT_zhz.py 51-141) -/
def electronic (mode : Mode) (k : Nat) : List (List Char) :=
  List.replicate k [] ++ (match mode with | .rhs => [['a', 'c'], ['c']] | .lhs => [[], ['c']])

/-! ## Prefactor -/

/-- one of the two blocks for h (code_eT_zhz.py 536-566, 568-598): numerator and denominator -/
def prefH (m m_lhs m_r : Nat) (p : Nat × Nat) : Nat × Nat :=
  if m > 1 then (p.1 * Nat.choose m m_lhs * Nat.choose (m - m_lhs) m_r, p.2 * m.factorial) else p

/-- the block for the upper labels of z (code_eT_zhz.py 600-645) -/
def prefZUpper (z : Z) (p : Nat × Nat) : Except PyErr (Nat × Nat) :=
  if z.m > 1 then
    if Nat.choose (z.m - z.m_lhs - z.m_h) z.m_t.sum = 1 then
      .ok (p.1 * Nat.choose z.m z.m_lhs * Nat.choose (z.m - z.m_lhs) z.m_h * z.m_h.factorial, p.2 * z.m.factorial)
    else .error .assertion
  else .ok p

/-- the block for the lower labels of z (code_eT_zhz.py 647-668) -/
def prefZLower (z : Z) (p : Nat × Nat) : Nat × Nat :=
  if z.n > 1 then (p.1 * Nat.choose z.n z.n_lhs * z.n_h.factorial, p.2 * z.n.factorial) else p

/-- the loop over the t (code_eT_zhz.py 670-679); the factorial of 0 or 1 is 1 -/
def prefT (ts : List T) (p : Nat × Nat) : Nat × Nat :=
  ts.foldl (fun p t => (p.1, p.2 * t.m.factorial * t.n.factorial)) p

/-- `_build_eT_zhz_python_prefactor` (code_eT_zhz.py 496-693): `numerator_value, denominator_value`.  A
factor that is 1 is multiplied here and skipped in the code.  The early returns of 514-519 are not
reached: `t_list` is never empty, and its entries have eleven fields. -/
def prefactor (ts : List T) (h : HC) (z : Z) : Except PyErr (Nat × Nat) :=
  match prefZUpper z (prefH h.n h.n_lhs h.n_r (prefH h.m h.m_lhs h.m_r (1, 1))) with
  | .error e => .error e
  | .ok p => .ok (prefT ts (prefZLower z p))

/-! ## Statements -/

/-- an argument of the einsum call: the name of the dictionary and the key -/
structure Operand where
  name : String
  m : Nat
  n : Nat
  deriving DecidableEq, Repr

/-- `np.einsum('<subs> -> <out>', <operands>)` -/
structure Einsum where
  subs : List (List Char)
  out : List Char
  operands : List Operand
  deriving DecidableEq, Repr

/-- text of an argument -/
def Operand.render (o : Operand) : String := o.name ++ "[(" ++ toString o.m ++ ", " ++ toString o.n ++ ")]"

/-- text of the call (code_eT_zhz.py 1170-1174 and the like) -/
def Einsum.render (e : Einsum) : String :=
  "np.einsum('" ++ ", ".intercalate (e.subs.map String.ofList) ++ " -> " ++ String.ofList e.out ++ "', " ++
    ", ".intercalate (e.operands.map Operand.render) ++ ")"

/-- A string with the keys under which it is stored (code_eT_zhz.py 1124-1132). -/
structure Entry where
  hRank : Nat
  tRank : Nat
  zRank : Nat
  pref : Rat
  code : Einsum
  deriving DecidableEq, Repr

/-- the operands for h and z (code_eT_zhz.py 1027-1052): `h_operand` is `None` for rank 0 on the left -/
def hzOperands (mode : Mode) (h : HC) (z : Z) : List Operand :=
  match mode with
  | .rhs => [⟨"h_args", h.m, h.n⟩, ⟨"z_args", z.m, z.n⟩]
  | .lhs => if h.m = 0 ∧ h.n = 0 then [⟨"dz_args", z.m, z.n⟩] else [⟨"dT", h.m, h.n⟩, ⟨"z_args", z.m, z.n⟩]

/-- the operand for a t (code_eT_zhz.py 1209-1216, 1262-1269) -/
def tOperand (mode : Mode) (t : T) : Operand :=
  ⟨match mode with | .rhs => "t_args" | .lhs => "t_conj", t.m_lhs + t.m_h + t.m_r, t.n_lhs + t.n_h + t.n_r⟩

/-- `e_char + remaining_indices` (code_eT_zhz.py 1146-1149) -/
def outLabels (mode : Mode) (rest : List Char) : List Char :=
  (match mode with | .rhs => 'a' | .lhs => 'c') :: rest

/-- The strings of one term (code_eT_zhz.py 1150-1290).  `permutations` is `[range(len(t_list))]` in both
branches of `_multiple_perms_logic` (696-756), so the t factors keep their order.  With a single unit
factor the string is repeated for each permutation of the external letters (1178-1198). -/
def codes (mode : Mode) (ts : List T) (h : HC) (z : Z) (v : List (List Char)) (rest : List Char) : List Einsum :=
  let subs := glue (electronic mode ts.length) v
  let out := outLabels mode rest
  match ts.dedup with
  | [t] =>
    if t.rank = 0 then
      let e : Einsum := ⟨subs.filter fun s => decide (s ≠ []), out, hzOperands mode h z⟩
      if rest = [] then [e] else List.replicate (uniquePermutations charsLe rest).length e
    else [⟨subs.filter fun s => decide (s ≠ []), out, ts.map (tOperand mode) ++ hzOperands mode h z⟩]
  | _ => [⟨subs, out, ts.map (tOperand mode) ++ hzOperands mode h z⟩]

/-- One pass of the big loop (code_eT_zhz.py 1021-1306). -/
def entriesOf (mode : Mode) (t : Term) : Except PyErr (List Entry) :=
  if t.h.m_r = t.z.n_h ∧ t.h.n_r = t.z.m_h then
    match prefactor t.ts t.h t.z with
    | .error e => .error e
    | .ok p =>
      match vibrational t.ts t.h t.z with
      | .error e => .error e
      | .ok v => .ok ((codes mode t.ts t.h t.z v.1 v.2).map fun c =>
          { hRank := max t.h.m t.h.n, tRank := (t.ts.map T.rank).foldl max 0, zRank := t.z.rank,
            pref := mkRat p.1 p.2, code := c })
  else .error .assertion

/-! ## Collation -/

/-- text of a prefactor (code_eT_zhz.py 1104-1113) -/
def prefText (q : Rat) : String :=
  if q = 1 then "" else "(" ++ toString q.num ++ " / " ++ toString q.den ++ ") * "

/-- Python's order on strings -/
def textLe (a b : String) : Bool := charsLe a.toList b.toList

/-- elements with distinct texts, the first of each -/
def distinctBy {α : Type} (f : α → String) : List α → List α
  | [] => []
  | a :: l => a :: (distinctBy f l).filter fun b => decide (f b ≠ f a)

/-- removal of duplicate strings (code_eT_zhz.py 1321-1330) -/
def uniqueCodes (l : List Einsum) : List Einsum :=
  let u := sortBy (fun a b => textLe a.render b.render) (distinctBy Einsum.render l)
  if l.length = u.length then l else u

/-- `R += <pref>(<codes>)` -/
structure Stmt where
  pref : Rat
  codes : List Einsum
  deriving DecidableEq, Repr

/-- the statements for one rank of z, under `if truncation.z_at_least_...` unless the rank is 0 -/
structure ZBlock where
  z : Nat
  stmts : List Stmt
  deriving DecidableEq, Repr

/-- the dictionary for one rank of h and one rank of t after removal of duplicates and sorting
(code_eT_zhz.py 1315-1385); the keys of a dictionary are the distinct keys of the stored entries -/
def bucket (es : List Entry) (i j : Nat) : List ZBlock :=
  let l := es.filter fun e => decide (e.hRank = i) && decide (e.tRank = j)
  (sortBy (fun a b => decide (a ≤ b)) (l.map Entry.zRank).dedup).map fun z =>
    let lz := l.filter fun e => decide (e.zRank = z)
    { z := z
      stmts := (sortBy (fun a b => textLe (prefText a) (prefText b)) (lz.map Entry.pref).dedup).map fun q =>
        { pref := q, codes := uniqueCodes ((lz.filter fun e => decide (e.pref = q)).map Entry.code) } }

/-- The statements for one rank of h: without t, and for each rank of t with statements, under
`if truncation.t_...`. -/
structure HBlock where
  h : Nat
  zero : List ZBlock
  ts : List (Nat × List ZBlock)
  deriving DecidableEq, Repr

/-- `hamiltonian_order_tag[z_order]` is evaluated for every block with `z_order > 0` (code_eT_zhz.py
967-970) -/
def zTagsOk (l : List ZBlock) : Bool := l.all fun b => decide (b.z < hamiltonianTag.length)

/-- one rank of h (code_eT_zhz.py 1424-1450 for rank 0, 1453-1525); the tags are looked up in
`hamiltonian_order_tag` and `taylor_series_order_tag` -/
def hBlock (cc : Nat) (es : List Entry) (i : Nat) : Except PyErr HBlock :=
  let b : HBlock := ⟨i, bucket es i 0, ((range2 1 (cc + 1)).map fun j => (j, bucket es i j)).filter fun p => decide (p.2 ≠ [])⟩
  if i < hamiltonianTag.length ∧ zTagsOk b.zero ∧
      (b.ts.all fun p => zTagsOk p.2 && decide (p.1 < taylorTag.length)) then .ok b
  else .error .index

/-- What is written in place of the code of a function. -/
inductive Part
  /-- `pass  # all terms invalid` (code_eT_zhz.py 1741-1745) -/
  | allInvalid
  /-- `pass  # no valid terms here` (1001-1002) -/
  | noTerms
  | code (l : List HBlock)
  deriving DecidableEq, Repr

/-- `_write_third_eTz_einsum_python` (code_eT_zhz.py 987-1593).  `hMax` is `H.maximum_rank` and `cc` is
`master_omega.maximum_rank`. -/
def write (hMax cc : Nat) (mode : Mode) (ts : List Term) : Except PyErr Part :=
  if ts = [] then .ok .noTerms
  else
    match collect (entriesOf mode) ts with
    | .error e => .error e
    | .ok es =>
      match collect (fun i => TF.CC.one (hBlock cc es i)) (List.range (hMax + 1)) with
      | .error e => .error e
      | .ok l => .ok (.code l)

/-! ## Generation -/

/-- the operator lists shared by all calls (code_eT_zhz.py 1994) -/
structure Ops where
  H : List HOp
  zs : List Op
  ss : List Series
  deriving DecidableEq, Repr

/-- `remove_all_excited_state_t_terms` (code_eT_zhz.py 1597-1650), the loop: `is` is the sum of `i_list`,
`js` the sum of `j_list` (never reset), `i` the index. -/
def pruneLoop : Nat → Nat → Nat → List Series → List Series × Nat
  | _, is, _, [] => ([], is)
  | i, is, js, .one e :: ss =>
    let r := pruneLoop (i + 1) (if e.m > 0 then is + i else is) js ss
    (.one e :: r.1, r.2)
  | i, is, js, .lin l :: ss =>
    let js' := js + (l.filter fun e => decide (e.m > 0)).length
    let r := pruneLoop (i + 1) is js' ss
    (.lin (l.drop js') :: r.1, r.2)
  | i, is, js, .prods l :: ss =>
    let l' := l.map fun e => e.drop (e.filter fun x => decide (x.m > 0)).length
    let r := pruneLoop (i + 1) is js ss
    (.prods (l'.drop js) :: r.1, r.2)

/-- an empty list (code_eT_zhz.py 1646) -/
def isEmpty : Series → Bool
  | .one _ => false
  | .lin l => l.isEmpty
  | .prods l => l.isEmpty

/-- the list after the deletions, which happen in place -/
def pruned (ss : List Series) : List Series :=
  let r := pruneLoop 0 0 0 ss
  r.1.drop r.2

/-- the state of the operator lists after the pruning of 1676-1688 -/
def prune (gs : Bool) (mode : Mode) (o : Ops) : Ops :=
  if gs then
    { H := match mode with | .rhs => o.H | .lhs => o.H.filter fun h => decide (h.n = 0)
      zs := o.zs.filter fun z => decide (z.n = 0)
      ss := pruned o.ss }
  else o

/-- `term[2].rank == 0` and `term[3][1].m == term[0].n` (code_eT_zhz.py 1711-1715) -/
def isDerivative (t : Term) : Bool := decide (t.h.rank = 0) && decide (t.z.m = t.lhs.n)

/-- `_generate_eT_zhz_einsums` (code_eT_zhz.py 1655-1774): the two parts.  The terms with t factors are
generated with `'RHS'` whatever the side (1729). -/
def einsumsOf (hMax cc : Nat) (mode : Mode) (lhs : Op) (H : List HOp) (zs : List Op) (ss : List Series) :
    Except PyErr (Part × Part) :=
  match ss with
  | [] => .error .index
  | s :: rest =>
    match filterTerms lhs s H zs mode with
    | .error e => .error e
    | .ok zero =>
      match collect (fun s => filterTerms lhs s H zs .rhs) rest with
      | .error e => .error e
      | .ok terms =>
        if zero.eraseP isDerivative = [] ∧ terms = [] then .ok (.allInvalid, .allInvalid)
        else
          match write hMax cc mode (zero.eraseP isDerivative) with
          | .error e => .error e
          | .ok a =>
            match write hMax cc mode terms with
            | .error e => .error e
            | .ok b => .ok (a, b)

/-- `_generate_eT_zhz_einsums`: the parts and the operator lists after the call.  With
`only_ground_state` the series is also filtered for empty lists (1646), without changing the shared
list. -/
def generate (hMax cc : Nat) (mode : Mode) (gs : Bool) (lhs : Op) (o : Ops) : Except PyErr ((Part × Part) × Ops) :=
  let o' := prune gs mode o
  match einsumsOf hMax cc mode lhs o'.H o'.zs (if gs then o'.ss.filter fun s => !isEmpty s else o'.ss) with
  | .error e => .error e
  | .ok p => .ok (p, o')

/-- The two functions written for one projection operator (code_eT_zhz.py 1780-1874): the code under
`if ansatz.ground_state` and under `else`, which is a `raise` when only the ground state is asked for. -/
structure Fns where
  omega : Op
  ground : Part × Part
  excited : Option (Part × Part)
  deriving DecidableEq, Repr

/-- `_construct_eT_zhz_compute_function` (code_eT_zhz.py 1780-1800); `opt_einsum` only changes names and
argument lists -/
def construct (hMax cc : Nat) (mode : Mode) (gs : Bool) (omega : Op) (o : Ops) : Except PyErr (Fns × Ops) :=
  match generate hMax cc mode true omega o with
  | .error e => .error e
  | .ok (g, o1) =>
    if gs then .ok (⟨omega, g, none⟩, o1)
    else
      match generate hMax cc mode false omega o1 with
      | .error e => .error e
      | .ok (x, o2) => .ok (⟨omega, g, some x⟩, o2)

/-- `_wrap_eT_zhz_generation` (code_eT_zhz.py 1877-1893) -/
def wrap (hMax cc : Nat) (mode : Mode) (gs : Bool) : List Op → Ops → Except PyErr (List Fns × Ops)
  | [], o => .ok ([], o)
  | p :: ps, o =>
    match construct hMax cc mode gs p o with
    | .error e => .error e
    | .ok (f, o1) =>
      match wrap hMax cc mode gs ps o1 with
      | .error e => .error e
      | .ok (fs, o2) => .ok (f :: fs, o2)

/-- The generated module: the default functions and the "optimized" ones. -/
structure Module where
  default : List Fns
  optimised : List Fns
  deriving DecidableEq, Repr

/-- the projection operators (code_eT_zhz.py 1984, 1989-1990) -/
def projections (cc pMax : Nat) : List Op := (omegaOps cc pMax).filter fun p => decide (p.m = 0)

/-- the operator lists (code_eT_zhz.py 1985-1987) -/
def operators (gs : Bool) (hMax cc : Nat) (ss : List Series) : Ops := ⟨Zhz.prunedH hMax, Zhz.zOps cc gs, ss⟩

/-- `_generate_eT_zhz_python_file_contents` (code_eT_zhz.py 1966-2038) after the verification. -/
def module (gs : Bool) (mode : Mode) (hMax cc T eT pMax : Nat) : Except PyErr Module :=
  match eTaylor T eT with
  | .error e => .error e
  | .ok ss =>
    match wrap hMax cc mode gs (projections cc pMax) (operators gs hMax cc ss) with
    | .error e => .error e
    | .ok (d, o) =>
      match wrap hMax cc mode gs (projections cc pMax) o with
      | .error e => .error e
      | .ok (d', _) => .ok ⟨d, d'⟩

/-! ## Text -/

/-- `_handle_multiline_same_prefactor` (code_eT_zhz.py 886-932) -/
def stmtLines (mode : Mode) (k : Nat) (s : Stmt) : List String :=
  let head := tabs k ++ (match mode with | .rhs => "R += " | .lhs => "Z += ") ++ prefText s.pref
  match s.codes with
  | [c] => [head ++ c.render]
  | cs => (head ++ "(") :: ((cs.dropLast.map fun c => tabs (k + 1) ++ c.render ++ " +") ++
      (cs.getLast?.toList.map fun c => tabs (k + 1) ++ c.render)) ++ [tabs k ++ ")"]

/-- `_collect_z_contributions` (code_eT_zhz.py 935-980) -/
def zLines (mode : Mode) (k : Nat) (l : List ZBlock) : List String :=
  l.flatMap fun b =>
    if b.z = 0 then b.stmts.flatMap (stmtLines mode k)
    else (tabs k ++ "if truncation.z_at_least_" ++ (hamiltonianTag[b.z]?).getD "" ++ ":") ::
      b.stmts.flatMap (stmtLines mode (k + 1))

/-- the lines of one rank of h -/
def hLines (mode : Mode) (b : HBlock) : List String :=
  let k := if b.h = 0 then 0 else 1
  let body := zLines mode k b.zero ++ b.ts.flatMap fun p =>
    (tabs k ++ "if truncation.t_" ++ (taylorTag[p.1]?).getD "" ++ ":") :: zLines mode (k + 1) p.2
  if b.h = 0 then body
  else if body = [] then [""]
  else "" :: ("if truncation.h_at_least_" ++ (hamiltonianTag[b.h]?).getD "" ++ ":") :: body

/-- removal of repeated empty lines (code_eT_zhz.py 1563-1586) -/
def squeeze : List String → List String
  | a :: b :: l => if a = "" ∧ b = "" then squeeze (b :: l) else a :: squeeze (b :: l)
  | l => l

/-- the lines of a part -/
def Part.lines (mode : Mode) : Part → List String
  | .allInvalid => ["pass  # all terms invalid"]
  | .noTerms => ["pass  # no valid terms here"]
  | .code l =>
    let r := l.flatMap (hLines mode)
    let r := squeeze (if r = [] then ["pass"] else r)
    match r with
    | "" :: r => r
    | r => r

/-- `str(Proj)` -/
def showOp (p : Op) : String :=
  "operator(name='" ++ p.name ++ "', rank=" ++ toString p.rank ++ ", m=" ++ toString p.m ++ ", n=" ++ toString p.n ++ ")"

/-- text of a function (code_eT_zhz.py 1806-1874) -/
def fnText (mode : Mode) (opt eT : Bool) (omega : Op) (ground : List String) (excited : List String) : String :=
  let spec := "m" ++ toString omega.m ++ "_n" ++ toString omega.n
  let kind := if eT then "eT_HZ" else "HZ"
  let name := match mode with
    | .rhs => "add_" ++ spec ++ "_" ++ kind ++ "_terms" ++ (if opt then "_optimized" else "")
    | .lhs => "compute_" ++ spec ++ "_" ++ kind ++ "_LHS" ++ (if opt then "_optimized" else "")
  let args := (match mode with
    | .rhs => "R, ansatz, truncation, t_args, h_args, z_args"
    | .lhs => "Z, ansatz, truncation, t_conj, dT, z_args, dz_args") ++ (if opt then ", opt_einsum" else "")
  let doc := if eT then
      ["These terms include the vibrational contributions from the e^T operator.",
       "This increases the number of possible non-zero permutations of creation/annihilation operators."]
    else ["These terms have no vibrational contribution from the e^T operator.",
       "This reduces the number of possible non-zero permutations of creation/annihilation operators."]
  let ind := fun (s : String) => if s = "" then "" else tabs 2 ++ s
  let lines := ["", "def " ++ name ++ "(" ++ args ++ "):",
      tabs 1 ++ "\"\"\" " ++ (if opt then "Optimized calculation of the " else "Calculate the ") ++ showOp omega ++ " " ++
        kind ++ " terms."] ++ doc.map (fun s => tabs 1 ++ s) ++ [tabs 1 ++ "\"\"\"", "", tabs 1 ++ "if ansatz.ground_state:"] ++
    ground.map ind ++ [tabs 1 ++ "else:"] ++ excited.map ind ++ ["", tabs 1 ++ "return", ""]
  "\n".intercalate lines ++ "\n"

/-- `named_line` (helper_funcs.py 110-115) -/
def namedLine (name : String) (w : Nat) : String :=
  let d := String.ofList (List.replicate w '-')
  "# " ++ d ++ " " ++ name ++ " " ++ d ++ " #"

/-- `spaced_named_line` with a line of `s` dashes (helper_funcs.py 118-125) -/
def spacedNamedLine (name : String) (w s : Nat) : String :=
  let l := "# " ++ String.ofList (List.replicate s '-') ++ " #\n"
  l ++ namedLine name w ++ "\n" ++ l

/-- text of both functions of every projection operator (code_eT_zhz.py 1877-1893) -/
def wrapText (mode : Mode) (opt : Bool) (fs : List Fns) : String :=
  String.join ((fs.zip (Zhz.previous (fs.map Fns.omega))).map fun p =>
    let f := p.1
    let raises := ["raise NotImplementedError('Hot Band amplitudes not implemented!')"]
    let x := match f.excited with
      | none => (raises, raises)
      | some x => (x.1.lines mode, x.2.lines mode)
    (if f.omega.rank > p.2.rank then
      spacedNamedLine ("RANK " ++ (if f.omega.rank < 10 then " " else "") ++ toString f.omega.rank ++ " FUNCTIONS") 28 75 ++ "\n"
      else "") ++
    "\n" ++ namedLine (showOp f.omega ++ " TERMS") 14 ++
    fnText mode opt false f.omega (f.ground.1.lines mode) x.1 ++ fnText mode opt true f.omega (f.ground.2.lines mode) x.2)

/-- the calls `truncation.confirm_at_least_...()` (code_eT_zhz.py 1905-1910) -/
def confirms (p : Op) : List String :=
  "singles" :: (((["doubles", "triples", "quadruples", "quintuples", "sextuples"].zip [2, 3, 4, 5, 6]).filter
    fun x => decide (p.m ≥ x.2 ∨ p.n ≥ x.2)).map Prod.fst)

/-- `_write_master_eT_zhz_compute_function` (code_eT_zhz.py 1896-1963) -/
def masterText (mode : Mode) (opt : Bool) (p : Op) : String :=
  let spec := "m" ++ toString p.m ++ "_n" ++ toString p.n
  let args := match mode with
    | .rhs => "ansatz, truncation, t_args, h_args, z_args"
    | .lhs => "ansatz, truncation, t_conj, dT, z_args, dz_args"
  let tensor := match mode with | .rhs => "R" | .lhs => "dz"
  let step := match mode with | .rhs => "add" | .lhs => "compute"
  let ty := match mode with | .rhs => "terms" | .lhs => "LHS"
  let o := if opt then "_optimized" else ""
  let call := fun (kind path : String) => tabs 1 ++ step ++ "_" ++ spec ++ "_" ++ kind ++ "_" ++ ty ++ o ++ "(" ++ tensor ++
    ", " ++ args ++ (if opt then ", " ++ path else "") ++ ")"
  "\n".intercalate (["", "def compute_" ++ spec ++ "_amplitude" ++ o ++ "(A, N, " ++ args ++
      (if opt then ", opt_paths" else "") ++ "):",
    tabs 1 ++ "\"\"\"Compute the " ++ showOp p ++ " amplitude.\"\"\""] ++
    (confirms p).map (fun c => tabs 1 ++ "truncation.confirm_at_least_" ++ c ++ "()") ++
    ["", tabs 1 ++ "# the residual tensor",
     tabs 1 ++ tensor ++ " = np.zeros(shape=(" ++ ", ".intercalate ("A" :: List.replicate p.rank "N") ++ "), dtype=complex)", ""] ++
    (if opt then [tabs 1 ++ "# unpack the optimized paths",
      tabs 1 ++ "optimized_HZ_paths, optimized_eT_HZ_paths = opt_paths", ""] else []) ++
    [tabs 1 ++ "# " ++ step ++ " the terms", call "HZ" "optimized_HZ_paths", call "eT_HZ" "optimized_eT_HZ_paths",
     tabs 1 ++ "return " ++ tensor, "", ""])

/-- text of the module without the import statements -/
def Module.render (mode : Mode) (m : Module) : String :=
  let part := fun (opt : Bool) (fs : List Fns) =>
    "\n" ++ namedLine "INDIVIDUAL TERMS" 45 ++ "\n\n" ++ wrapText mode opt fs ++
    "\n" ++ namedLine "RESIDUAL FUNCTIONS" 45 ++ String.join (fs.map fun f => masterText mode opt f.omega)
  spacedNamedLine "DEFAULT FUNCTIONS" 45 109 ++ part false m.default ++
    spacedNamedLine "OPTIMIZED FUNCTIONS" 44 109 ++ part true m.optimised ++ "\n" ++
    namedLine "OPTIMIZED PATHS FUNCTION" 45

/-- `eT_zhz_import_statements` (code_import_statements_module.py 12-24) -/
def importStatements : String :=
  "# system imports\nfrom math import factorial\n\n# third party imports\nimport numpy as np\nimport opt_einsum as oe\n\n" ++
    "# local imports\nfrom .symmetrize import symmetrize_tensor\nfrom ..log_conf import log\n\n"

/-- `generate_eT_zhz_python` (code_eT_zhz.py 2041-2054): the text written to the file -/
def fileText (mode : Mode) (m : Module) : String := importStatements ++ m.render mode

end TF.ETPy
