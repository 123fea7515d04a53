import Verif.Model.FullCC.Latex
import Verif.Model.Helper

/-!
# Model of the Python code generator `termfactory/code_full_cc.py`

The generated code is kept as a structured program (`Program`), rendered to lines of text by
`Program.lines`.  The two writers (`_write_cc_einsum_python_from_list` 347-598 and
`_write_cc_optimized_paths_from_list` 805-1039) are copies of each other that differ in the text of
one item; the common part is modelled once, with the items as a parameter.  `trunc_obj_name` has its
default value.
-/

namespace TF.CC

open TF.Py TF.Helper

/-- `electronic_surface_indices` (code_full_cc.py 57). -/
def surfaceIdx : List Char := ['c', 'd', 'e', 'f', 'g', 'h']

/-- `_full_cc_einsum_electronic_components` (code_full_cc.py 55-66).  `components[-1][0]` raises
`IndexError` when the last component is empty. -/
def electronic (k : Nat) : Except PyErr (List (List Char)) :=
  let comps := ['a', 'c'] :: (List.range k).map fun i => slice surfaceIdx i (i + 2)
  match comps.getLast? with
  | some (x :: _) => .ok (comps.dropLast ++ [[x, 'b']])
  | _ => .error .index

/-- `_build_h_term_python_labels` (code_full_cc.py 69-87) with the default offset: summation letters
and external letters. -/
def pyHLabels (h : HC) : List Char × List Char :=
  if h.rank = 0 then ([], [])
  else
    let hOff := h.m - h.m_o
    (slice summationIdx 0 (h.m - h.m_o) ++ slice summationIdx hOff (hOff + (h.n - h.n_o)),
      slice unlinkedIdx 0 h.m_o ++ slice unlinkedIdx h.m_o (h.m_o + h.n_o))

/-- `_build_t_term_python_labels` (code_full_cc.py 90-116) with the updated offsets. -/
def pyTLabels (t : T) (o : Offs) : (List Char × List Char) × Offs :=
  let low := decide (t.n_h > 0) || decide (t.n_o > 0)
  let s₁ := if low then slice summationIdx o.lower (o.lower + t.n_h) else []
  let x₁ := if low then slice unlinkedIdx o.unlinked (o.unlinked + t.n_o) else []
  let o := if low then { o with lower := o.lower + t.n_h, unlinked := o.unlinked + t.n_o } else o
  let up := decide (t.m_h > 0) || decide (t.m_o > 0)
  let s₂ := if up then slice summationIdx o.upper (o.upper + t.m_h) else []
  let x₂ := if up then slice unlinkedIdx o.unlinked (o.unlinked + t.m_o) else []
  let o := if up then { o with upper := o.upper + t.m_h, unlinked := o.unlinked + t.m_o } else o
  ((s₁ ++ s₂, x₁ ++ x₂), o)

/-- The loop of `_build_t_term_python_group` (code_full_cc.py 132-136). -/
def pyTLoop : List T → Offs → List (List Char × List Char)
  | [], _ => []
  | t :: ts, o => (pyTLabels t o).1 :: pyTLoop ts (pyTLabels t o).2

/-- `_build_t_term_python_group` (code_full_cc.py 119-138). -/
def pyTGroup (ts : List T) (h : HC) : List (List Char × List Char) :=
  pyTLoop ts ⟨h.m - h.m_o, 0, h.m_o + h.n_o⟩

/-- `_full_cc_einsum_vibrational_components` (code_full_cc.py 141-161): the letters of `h` and of
every amplitude, and the external letters. -/
def vibrational (h : HC) (ts : List T) : List (List Char) × List Char :=
  let hl := pyHLabels h
  let g := pyTGroup ts h
  ((hl.1 ++ hl.2) :: g.map (fun p => p.1 ++ p.2), hl.2 ++ g.flatMap Prod.snd)

/-- The factor lists of `_build_full_cc_python_prefactor` (code_full_cc.py 241-312) after
simplification; a factor `factorial(k)` is represented by `k`. -/
def pyPrefactor (so : SetOrder Nat) (h : HC) (ts : List T) : List Nat × List Nat :=
  if ts = [⟨0, 0, 0, 0⟩] then ([], [])
  else
    let connected := ts.filter fun t => decide (t.m_h > 0) || decide (t.n_h > 0)
    let x := connected.dedup.length
    let num := if x > 1 then [x] else []
    let den := (if h.m > 1 then [h.m] else []) ++ (if h.n > 1 then [h.n] else []) ++
      (if ts.length > 1 then [ts.length] else [])
    simplify so num den

/-- code_full_cc.py 304-305 -/
def renderPyFactors (l : List Nat) : String :=
  if l = [] then "1" else "(" ++ " * ".intercalate (l.map fun k => "factorial(" ++ toString k ++ ")") ++ ")"

/-- The text of the prefactor (code_full_cc.py 303-310). -/
def renderPyPrefactor (p : List Nat × List Nat) : String :=
  if renderPyFactors p.1 = "1" ∧ renderPyFactors p.2 = "1" then ""
  else renderPyFactors p.1 ++ "/" ++ renderPyFactors p.2 ++ " * "

/-- `_rank_of_t_term_namedtuple` (code_full_cc.py 49-51), also `sum(t)` (882, 888, ...). -/
def rankT (t : T) : Nat := t.m_h + t.n_h + t.m_o + t.n_o

/-- The result of `_multiple_perms_logic` (code_full_cc.py 315-344) as far as the callers use it. -/
inductive Perms
  /-- one amplitude -/
  | single
  /-- several equal amplitudes -/
  | same (perms : List (List Nat))
  /-- at least two different amplitudes -/
  | mixed (perms : List (List Nat))
  deriving DecidableEq, Repr

/-- `_multiple_perms_logic` (code_full_cc.py 315-344).  For an empty list it raises. -/
def permsLogic (ts : List T) : Except PyErr Perms :=
  match ts.dedup with
  | [] => .error .exception
  | [t] => if ts.count t = 1 then .ok .single
      else .ok (.same (uniquePermutations lexLe (List.range (ts.count t))))
  | _ => .ok (.mixed (uniquePermutations lexLe (List.range ts.length)))

/-- One `np.einsum('subs -> ab out', h_args[(m, n)], t_args[(m, n)], ...)`. -/
structure Einsum where
  subs : List (List Char)
  out : List Char
  h : Nat × Nat
  ts : List (Nat × Nat)
  deriving DecidableEq, Repr

/-- One `next(optimized_einsum)(h_args[..], t_args[..], ...)`. -/
structure OptCall where
  h : Nat × Nat
  ts : List (Nat × Nat)
  deriving DecidableEq, Repr

/-- One `oe.contract_expression((A, A, N, ...), ...)`: the number of `N`s of every operand. -/
structure Path where
  shapes : List Nat
  deriving DecidableEq, Repr

/-- the key in `t_args[(.., ..)]` (code_full_cc.py 415, 448, 475) -/
def tKey (t : T) : Nat × Nat := (t.m_h + t.m_o, t.n_h + t.n_o)

/-- the comparison of tuples of letters used by `sorted` in `unique_permutations` -/
def charsLe (a b : List Char) : Bool := lexLe (a.map Char.toNat) (b.map Char.toNat)

/-- `l[i]` for the indices of a permutation; out of range is `IndexError` -/
def pick {α : Type} (l : List α) : List Nat → Except PyErr (List α)
  | [] => .ok []
  | i :: is =>
    match l[i]? with
    | none => .error .index
    | some a =>
      match pick l is with
      | .error e => .error e
      | .ok r => .ok (a :: r)

/-- `[f"{e_a[i]}{v_a[i]}" for i in range(len(e_a))]` (code_full_cc.py 425) for lists of equal length. -/
def glue (e v : List (List Char)) : List (List Char) := List.zipWith (· ++ ·) e v

/-- The einsums of one term with amplitudes (code_full_cc.py 414-489, `opt_einsum=False`).
`e_a[i+1]` is paired with `v_a[p+1]`. -/
def einsums (h : HC) (ts : List T) : Except PyErr (List Einsum) :=
  match permsLogic ts with
  | .error e => .error e
  | .ok perms =>
    match electronic ts.length with
    | .error e => .error e
    | .ok ea =>
      let v := vibrational h ts
      match perms with
      | .single =>
        let x : Einsum := ⟨glue ea v.1, v.2, (h.m, h.n), ts.map tKey⟩
        if v.2 = [] then .ok [x] else .ok ((uniquePermutations charsLe v.2).map fun _ => x)
      | .same ps =>
        collect (fun p =>
          match pick v.1.tail p with
          | .error e => .error e
          | .ok vp => .ok [⟨glue ea (v.1.headD [] :: vp), v.2, (h.m, h.n), ts.map tKey⟩]) ps
      | .mixed ps =>
        collect (fun p =>
          match pick v.1.tail p, pick ts p with
          | .ok vp, .ok tp => .ok [⟨glue ea (v.1.headD [] :: vp), v.2, (h.m, h.n), tp.map tKey⟩]
          | .error e, _ => .error e
          | _, .error e => .error e) ps

/-- The optimised calls of one term (code_full_cc.py 414-489, `opt_einsum=True`): the electronic and
vibrational labels are computed but not used. -/
def optCalls (h : HC) (ts : List T) : Except PyErr (List OptCall) :=
  match permsLogic ts with
  | .error e => .error e
  | .ok perms =>
    match electronic ts.length with
    | .error e => .error e
    | .ok _ =>
      let v := vibrational h ts
      match perms with
      | .single =>
        let x : OptCall := ⟨(h.m, h.n), ts.map tKey⟩
        if v.2 = [] then .ok [x] else .ok ((uniquePermutations charsLe v.2).map fun _ => x)
      | .same ps => .ok (ps.map fun _ => ⟨(h.m, h.n), ts.map tKey⟩)
      | .mixed ps =>
        collect (fun p =>
          match pick ts p with
          | .error e => .error e
          | .ok tp => .ok [⟨(h.m, h.n), tp.map tKey⟩]) ps

/-- The contraction expressions of one term (code_full_cc.py 873-927). -/
def paths (h : HC) (ts : List T) : Except PyErr (List Path) :=
  if h.rank ≠ h.m + h.n then .error .assertion
  else
    match permsLogic ts with
    | .error e => .error e
    | .ok perms =>
      match perms with
      | .single =>
        let v := vibrational h ts
        let x : Path := ⟨(h.m + h.n) :: ts.map rankT⟩
        if v.2 = [] then .ok [x] else .ok ((uniquePermutations charsLe v.2).map fun _ => x)
      | .same ps => .ok (ps.map fun _ => ⟨(h.m + h.n) :: ts.map rankT⟩)
      | .mixed ps =>
        collect (fun p =>
          match pick ts p with
          | .error e => .error e
          | .ok tp => .ok [⟨(h.m + h.n) :: tp.map rankT⟩]) ps

/-! ## The table of strings and the program -/

/-- The position of a term in `hamiltonian_rank_list` (code_full_cc.py 411): index of the outer list,
key of the dictionary, key (text of the prefactor) of the inner dictionary. -/
structure Key where
  hr : Nat
  tr : Nat
  pref : String
  deriving DecidableEq, Repr

/-- code_full_cc.py 397-398, 411 -/
def keyOf (so : SetOrder Nat) (h : HC) (ts : List T) : Key :=
  ⟨max h.m h.n, (ts.map rankT).foldl max 0, renderPyPrefactor (pyPrefactor so h ts)⟩

/-- Assignment `d[key] = value` in an insertion-ordered dictionary. -/
def assign {κ β : Type} [DecidableEq κ] (d : List (κ × β)) (k : κ) (v : β) : List (κ × β) :=
  if d.any fun p => p.1 == k then d.map fun p => if p.1 = k then (k, v) else p else d ++ [(k, v)]

/-- A term that is only `h` (code_full_cc.py 389, 846). -/
def onlyH (ts : List T) : Bool := ts == [⟨0, 0, 0, 0⟩]

/-- The loop over the terms (code_full_cc.py 382-492, 839-930): the `h_args` keys of the lines
`R += h_args[..]` and the table of all items.  The nested list/dictionary `hamiltonian_rank_list` is
one insertion-ordered dictionary with three-part keys.  A rank outside the table raises (`IndexError`
for the outer list, `KeyError` for the dictionary). -/
def fillTable {ι : Type} (so : SetOrder Nat) (hMax cc : Nat) (items : HC → List T → Except PyErr (List ι)) :
    List Term → List (Nat × Nat) → List (Key × List ι) →
      Except PyErr (List (Nat × Nat) × List (Key × List ι))
  | [], adds, tab => .ok (adds, tab)
  | t :: l, adds, tab =>
    if onlyH t.ts then fillTable so hMax cc items l (adds ++ [(t.h.m, t.h.n)]) tab
    else
      let k := keyOf so t.h t.ts
      if k.hr > hMax then .error .index
      else if k.tr > cc then .error .key
      else
        match items t.h t.ts with
        | .error e => .error e
        | .ok is => fillTable so hMax cc items l adds (assign tab k is)

/-- `if truncation.<tag of j>:` and the groups with one prefactor in its scope. -/
structure CBlock (ι : Type) where
  j : Nat
  groups : List (String × List ι)
  deriving DecidableEq, Repr

/-- `if truncation.at_least_<tag of i>:` and its scope. -/
structure HBlock (ι : Type) where
  i : Nat
  groups : List (String × List ι)
  cblocks : List (CBlock ι)
  deriving DecidableEq, Repr

/-- The body of a generated function: `R += h_args[..]` lines, groups, conditional blocks.  The
program without any statement is `pass`. -/
structure Program (ι : Type) where
  adds : List (Nat × Nat)
  groups : List (String × List ι)
  cblocks : List (CBlock ι)
  hblocks : List (HBlock ι)
  deriving DecidableEq, Repr

/-- the inner dictionary `hamiltonian_rank_list[i][j]` -/
def bucket {ι : Type} (tab : List (Key × List ι)) (i j : Nat) : List (String × List ι) :=
  (tab.filter fun p => p.1.hr == i && p.1.tr == j).map fun p => (p.1.pref, p.2)

/-- The loop over the CC ranks (code_full_cc.py 546-558, 576-588, 984-996, 1014-1026). -/
def cblocks {ι : Type} (tab : List (Key × List ι)) (cc i : Nat) : List (CBlock ι) :=
  ((range2 1 (cc + 1)).filter fun j => !(bucket tab i j).isEmpty).map fun j => ⟨j, bucket tab i j⟩

/-- `hamiltonian_order_tag` (code_w_equations.py 182). -/
def hamiltonianTag : List String := ["", "linear", "quadratic", "cubic", "quartic", "quintic"]

/-- `taylor_series_order_tag` (code_w_equations.py 181). -/
def taylorTag : List String := ["", "singles", "doubles", "triples", "quadruples", "quintuples", "sextuples"]

/-- The loop over the Hamiltonian ranks (code_full_cc.py 561-597, 999-1035).  The tag is looked up for
every rank, also for one without terms.  (A CC rank without a tag is an error, too.) -/
def hblocks {ι : Type} (tab : List (Key × List ι)) (hMax cc : Nat) : Except PyErr (List (HBlock ι)) :=
  collect (fun i =>
    match hamiltonianTag[i]? with
    | none => .error .index
    | some _ =>
      let b : HBlock ι := ⟨i, bucket tab i 0, cblocks tab cc i⟩
      if b.cblocks.any fun c => decide (taylorTag.length ≤ c.j) then .error .index
      else if b.groups.isEmpty && b.cblocks.isEmpty then .ok [] else .ok [b]) (range2 1 (hMax + 1))

/-- `_write_cc_einsum_python_from_list` (code_full_cc.py 347-598) and
`_write_cc_optimized_paths_from_list` (805-1039) as functions of the item builder. -/
def writeProgram {ι : Type} (so : SetOrder Nat) (hMax cc : Nat) (items : HC → List T → Except PyErr (List ι))
    (l : List Term) : Except PyErr (Program ι) :=
  if l = [] then .ok ⟨[], [], [], []⟩
  else
    match fillTable so hMax cc items l [] [] with
    | .error e => .error e
    | .ok (adds, tab) =>
      if (cblocks tab cc 0).any fun c => decide (taylorTag.length ≤ c.j) then .error .index
      else
        match hblocks tab hMax cc with
        | .error e => .error e
        | .ok hb => .ok ⟨adds, bucket tab 0 0, cblocks tab cc 0, hb⟩

/-- the default, the optimised and the path writer; the last one does not record the
`R += h_args[..]` lines (code_full_cc.py 849-851) -/
def writeDefault (so : SetOrder Nat) (hMax cc : Nat) (l : List Term) : Except PyErr (Program Einsum) :=
  writeProgram so hMax cc einsums l
def writeOpt (so : SetOrder Nat) (hMax cc : Nat) (l : List Term) : Except PyErr (Program OptCall) :=
  writeProgram so hMax cc optCalls l
def writePaths (so : SetOrder Nat) (hMax cc : Nat) (l : List Term) : Except PyErr (Program Path) :=
  match writeProgram so hMax cc paths l with
  | .error e => .error e
  | .ok p => .ok { p with adds := [] }

/-! ## Text -/

/-- `h_args[(m, n)]` -/
def renderArg (name : String) (p : Nat × Nat) : String :=
  name ++ "_args[(" ++ toString p.1 ++ ", " ++ toString p.2 ++ ")]"

/-- the operands of a call -/
def renderOperands (h : Nat × Nat) (ts : List (Nat × Nat)) : String :=
  renderArg "h" h ++ ", " ++ ", ".intercalate (ts.map (renderArg "t"))

/-- code_full_cc.py 425-426 -/
def Einsum.render (e : Einsum) : String :=
  "np.einsum('" ++ ", ".intercalate (e.subs.map String.ofList) ++ " -> ab" ++ String.ofList e.out ++ "', " ++
    renderOperands e.h e.ts ++ ")"

/-- code_full_cc.py 428 -/
def OptCall.render (e : OptCall) : String := "next(optimized_einsum)(" ++ renderOperands e.h e.ts ++ ")"

/-- `_A_A_term_shape_string` (code_full_cc.py 800-802) -/
def renderShape (k : Nat) : String := "(" ++ ", ".intercalate ("A" :: "A" :: List.replicate k "N") ++ ")"

/-- code_full_cc.py 891 -/
def Path.render (p : Path) : String :=
  "oe.contract_expression(" ++ ", ".intercalate (p.shapes.map renderShape) ++ ")"

/-- four spaces, `k` times -/
def tabs (k : Nat) : String := String.ofList (List.replicate (4 * k) ' ')

/-- `_handle_multiline_same_prefactor` (code_full_cc.py 501-536) -/
def accumulate (k : Nat) (g : String × List String) : List String :=
  match g.2 with
  | [] => []
  | [s] => [tabs k ++ "R += " ++ g.1 ++ s]
  | l => (tabs k ++ "R += " ++ g.1 ++ "(") ::
      ((l.dropLast.map fun s => tabs (k + 1) ++ s ++ " +") ++ [tabs (k + 1) ++ l.getLastD ""]) ++ [tabs k ++ ")"]

/-- `_handle_multiline_same_prefactor` of the path writer (code_full_cc.py 942-975) -/
def extendList (name : String) (k : Nat) (g : String × List String) : List String :=
  match g.2 with
  | [] => []
  | [s] => [tabs k ++ name ++ ".append(" ++ s ++ ")"]
  | l => (tabs k ++ name ++ ".extend([") ::
      ((l.dropLast.map fun s => tabs (k + 1) ++ s ++ ",") ++ [tabs (k + 1) ++ l.getLastD ""]) ++ [tabs k ++ "])"]

/-- The lines of a program (code_full_cc.py 390, 538-598, 976-1039). -/
def Program.lines {ι : Type} (grp : Nat → String × List String → List String) (item : ι → String)
    (p : Program ι) : List String :=
  let gs (k : Nat) (l : List (String × List ι)) : List String := l.flatMap fun g => grp k (g.1, g.2.map item)
  let cb (k : Nat) (c : CBlock ι) : List String :=
    (tabs k ++ "if truncation." ++ taylorTag.getD c.j "" ++ ":") :: gs (k + 1) c.groups
  let hb (b : HBlock ι) : List String :=
    "" :: ("if truncation.at_least_" ++ hamiltonianTag.getD b.i "" ++ ":") ::
      (gs 1 b.groups ++ b.cblocks.flatMap (cb 1))
  let ls := (p.adds.map fun a => "R += " ++ renderArg "h" a) ++ gs 0 p.groups ++ p.cblocks.flatMap (cb 0) ++
    p.hblocks.flatMap hb
  if ls.isEmpty then ["pass  # no valid terms here"] else ls

/-! ## The file -/

/-- The functions generated for one projection operator: the three groups in the default, the
optimised and the path version (code_full_cc.py 601-640, 643-725, 1042-1078). -/
structure OmegaCode where
  omega : Op
  default : List (Program Einsum)
  opt : List (Program OptCall)
  paths : List (Program Path)
  deriving Repr

/-- the three groups of one projection operator, as the Python generators obtain them: ground state
only, f-terms removed (code_full_cc.py 609-622, 655, 1047-1066, 1093), whatever the caller asked for -/
def pyTerms (sol : SetOrder (List T)) (hMax cc smax : Nat) (omega : Op) : Except PyErr (List (List Term)) :=
  match termsFor sol true true hMax cc smax omega with
  | .error e => .error e
  | .ok L =>
    match separate L with
    | .error e => .error e
    | .ok (f, k, u) => .ok [f, k, u]

/-- One projection operator.  The two calls of the term generator return the same list: they are
the same computation in one process. -/
def omegaCode (so : SetOrder Nat) (sol : SetOrder (List T)) (hMax cc smax : Nat) (omega : Op) :
    Except PyErr OmegaCode :=
  match pyTerms sol hMax cc smax omega with
  | .error e => .error e
  | .ok gs =>
    match collect (fun l => one (writeDefault so hMax cc l)) gs, collect (fun l => one (writeOpt so hMax cc l)) gs,
        collect (fun l => one (writePaths so hMax cc l)) gs with
    | .ok d, .ok o, .ok p => .ok ⟨omega, d, o, p⟩
    | .error e, _, _ => .error e
    | _, .error e, _ => .error e
    | _, _, .error e => .error e

/-- `_generate_full_cc_python_file_contents` (code_full_cc.py 1218-1284) for verified truncations: the
code of every projection operator, in order.  (`only_ground_state` does not change the result, and
`remove_f_terms` is not a parameter.)  Python runs the default writer for all projection operators
before the optimised one; the order only decides which of several exceptions is raised. -/
def pythonFile (so : SetOrder Nat) (sol : SetOrder (List T)) (hMax cc smax omegaMax : Nat) :
    Except PyErr (List OmegaCode) :=
  collect (fun omega => one (omegaCode so sol hMax cc smax omega)) (omegaOps cc omegaMax)

end TF.CC
