import Verif.Model.Zhz

/-!
# Model of `latex_eT_zhz.py`: terms and LaTeX of the e^T z_t equations

`Z_left` is `None` at every call of `_filter_out_valid_eTz_terms` (latex_eT_zhz.py 2035,
code_eT_zhz.py 1699 and 1729), so the left slot is always the nameless operator of rank 0, its only
assignment is all zeros, and its recorded connections are 0.  The left slot is therefore left out.
`log` calls are left out.  A file write is a returned value.
-/
namespace TF.ET

open TF.Py TF.CC
open TF.Zhz (Color Piece Lab renderLab at' zSummation zUnlinked Fac Pref)

/-- `lhs_rhs`: `'RHS'` or `'LHS'`. -/
inductive Mode | rhs | lhs
  deriving DecidableEq, Repr

/-- `generate_eT_operator` (latex_eT_zhz.py 35-57): `m` is 0, `n = 0` is skipped. -/
def tOps (T : Nat) : List Op :=
  (List.range T).map fun i => ⟨"s_" ++ toString (i + 1), i + 1, 0, i + 1⟩

/-- `generate_eT_taylor_expansion` (latex_eT_zhz.py 60-98).  With `eT_taylor_max_order = 0` the list has
one entry and the assignment to entry 1 is an `IndexError`. -/
def eTaylor (T kMax : Nat) : Except PyErr (List Series) :=
  if kMax = 0 then .error .index
  else .ok (.one ⟨"1", 0, 0, 0⟩ :: .lin (tOps T) ::
    (List.range (kMax - 1)).map fun i => .prods (productRepeat (tOps T) (i + 2)))

/-- `sum([t.m for t in t_list])` -/
def sumM (ts : List Op) : Nat := (ts.map Op.m).sum
/-- `sum([t.n for t in t_list])` -/
def sumN (ts : List Op) : Nat := (ts.map Op.n).sum

/-- `_z_joining_with_z_terms_eT` (latex_eT_zhz.py 115-153), no left z -/
def zJoinsZ (lhs : Op) (ts : List Op) (h : HOp) (z : Op) : Bool :=
  decide (z.m > lhs.n + h.n + sumN ts) || decide (z.n > lhs.m + h.m + sumM ts)

/-- `_t_joining_with_t_terms_eT` (latex_eT_zhz.py 156-174) -/
def tJoinsT (lhs : Op) (ts : List Op) (h : HOp) (z : Op) : Bool :=
  decide (sumM ts > lhs.n + h.n + z.n) || decide (sumN ts > lhs.m + h.m + z.m)

/-- `_omega_joining_with_itself_eT` (latex_eT_zhz.py 177-205) -/
def omegaJoins (lhs : Op) (ts : List Op) (h : HOp) (z : Op) : Bool :=
  if lhs.m = 0 ∨ lhs.n = 0 then false
  else if h.m > 0 ∨ z.m > 0 ∨ (ts.any fun t => decide (t.m > 0)) then false
  else if h.n > 0 ∨ z.n > 0 ∨ (ts.any fun t => decide (t.n > 0)) then false
  else true

/-- `_h_joining_with_itself_eT` (latex_eT_zhz.py 208-236) -/
def hJoins (lhs : Op) (ts : List Op) (h : HOp) (z : Op) : Bool :=
  if h.m = 0 ∨ h.n = 0 then false
  else if lhs.m > 0 ∨ z.m > 0 ∨ (ts.any fun t => decide (t.m > 0)) then false
  else if lhs.n > 0 ∨ z.n > 0 ∨ (ts.any fun t => decide (t.n > 0)) then false
  else true

/-- The checks of one combination (latex_eT_zhz.py 312-345). -/
def validPerm (lhs : Op) (ts : List Op) (h : HOp) (z : Op) : Bool :=
  if lhs.m + h.m + z.m + sumM ts ≠ lhs.n + h.n + z.n + sumN ts then false
  else !zJoinsZ lhs ts h z && !tJoinsT lhs ts h z && !omegaJoins lhs ts h z && !hJoins lhs ts h z

/-- `_generate_valid_eT_z_n_operator_permutations` (latex_eT_zhz.py 282-350) -/
def validPerms (lhs : Op) (eT : List (List Op)) (h : HOp) (zs : List Op) : List (List Op × Op) :=
  (Zhz.pairs eT zs).filter fun p => validPerm lhs p.1 h p.2

/-- How the upper (or lower) labels of z are shared out: with the left-hand side, each t, h, and the
other z (latex_eT_zhz.py 384-395). -/
structure Dist where
  lhs : Nat
  ts : List Nat
  h : Nat
  other : Nat
  deriving DecidableEq, Repr

/-- latex_eT_zhz.py 384-395; `a, b, *t` runs over `it.product(range(M+1), repeat=2+k)`. -/
def dists (k M : Nat) : List Dist :=
  (List.range (M + 1)).flatMap fun a => (List.range (M + 1)).flatMap fun b =>
    ((productRepeat (List.range (M + 1)) k).filter fun t => decide (a + b + t.sum ≤ M)).map fun t =>
      ⟨a, t, b, M - (a + b + t.sum)⟩

/-- `each_eT_balanced` of the upper labels (latex_eT_zhz.py 429-434); the list of numbers has the length
of `t_list`. -/
def eachUpper (lhs : Op) (ts : List Op) (h : HOp) (d : Dist) : Bool :=
  (ts.zip d.ts).all fun p => decide (p.1.n ≤ lhs.m + h.m + p.2) && decide (p.1.rank ≥ p.2)

/-- `each_eT_balanced` of the lower labels (latex_eT_zhz.py 489-494) -/
def eachLower (lhs : Op) (ts : List Op) (h : HOp) (d : Dist) : Bool :=
  (ts.zip d.ts).all fun p => decide (p.1.m ≤ lhs.n + h.n + p.2) && decide (p.1.rank ≥ p.2)

/-- `_generate_all_valid_eT_z_connection_permutations` (latex_eT_zhz.py 353-530): the upper assignments
(409-470) and the lower ones (472-528).  With no left z the last number has to be at most 0. -/
def zPerms (lhs : Op) (ts : List Op) (h : HOp) (z : Op) : List Dist × List Dist :=
  ((dists ts.length z.m).filter fun d =>
      decide (d.h ≤ h.n) && decide (d.lhs ≤ lhs.n) && decide (d.ts.sum ≤ sumN ts) && eachUpper lhs ts h d &&
        decide (d.other ≤ 0),
   (dists ts.length z.n).filter fun d =>
      decide (d.h ≤ h.m) && decide (d.lhs ≤ lhs.m) && decide (d.ts.sum ≤ sumM ts) && eachLower lhs ts h d &&
        decide (d.other ≤ 0))

/-- `connected_eT_z_right_operator_namedtuple` and its disconnected variant (latex_eT_zhz.py 255-258,
269-272); the class is determined by `m_h` and `n_h` (758-762) and does not matter for equality. -/
structure Z where
  rank : Nat
  m : Nat
  n : Nat
  m_lhs : Nat
  n_lhs : Nat
  m_t : List Nat
  n_t : List Nat
  m_h : Nat
  n_h : Nat
  m_l : Nat
  n_l : Nat
  deriving DecidableEq, Repr

/-- latex_eT_zhz.py 743-762 -/
def mkZ (z : Op) (u l : Dist) : Z :=
  { rank := z.rank, m := z.m, n := z.n, m_lhs := u.lhs, m_t := u.ts, m_h := u.h, m_l := u.other,
    n_lhs := l.lhs, n_t := l.ts, n_h := l.h, n_l := l.other }

/-- The labelled z operators of one combination (latex_eT_zhz.py 700-797). -/
def zList (lhs : Op) (h : HOp) (p : List Op × Op) : List Z :=
  (Zhz.pairs (zPerms lhs p.1 h p.2).1 (zPerms lhs p.1 h p.2).2).map fun ul => mkZ p.2 ul.1 ul.2

/-- How the labels of one t are shared out: left-hand side, left z, h, right z. -/
structure Q where
  lhs : Nat
  l : Nat
  h : Nat
  r : Nat
  deriving DecidableEq, Repr

/-- `sum(t_upper)` -/
def Q.sum (q : Q) : Nat := q.lhs + q.l + q.h + q.r

/-- The ways to share out the labels of one t of which `used` go to z (latex_eT_zhz.py 593-608);
`range(M+1)` is empty for negative `M`. -/
def tDists (total used : Nat) : List Q :=
  if used ≤ total then (List.range (total - used + 1)).map fun a => ⟨a, 0, total - used - a, used⟩ else []

/-- `_generate_all_valid_eT_connection_permutations` (latex_eT_zhz.py 533-666): upper and lower
assignments of the t operators. -/
def tPerms (lhs : Op) (ts : List Op) (h : HOp) (z : Z) : Except PyErr (List (List Q) × List (List Q)) :=
  if sumN ts = z.m_t.sum ∧ sumM ts = z.n_t.sum then
    .ok ([(ts.zip z.n_t).map fun p => ⟨0, 0, 0, p.2⟩], [(ts.zip z.m_t).map fun p => ⟨0, 0, 0, p.2⟩])
  else if sumM ts = z.n_t.sum then
    .ok ((product ((ts.zip z.n_t).map fun p => tDists p.1.m p.2)).filter fun q =>
            decide ((q.map Q.lhs).sum ≤ lhs.n) && decide ((q.map Q.h).sum ≤ h.n),
         (product ((ts.zip z.m_t).map fun p => tDists p.1.n p.2)).filter fun q =>
            decide ((q.map Q.lhs).sum ≤ lhs.m) && decide ((q.map Q.h).sum ≤ h.m))
  else .error .notImplemented

/-- `connected_t_operator_namedtuple` and `disconnected_t_operator_namedtuple` (latex_eT_zhz.py 259-262,
273-276); disconnected means `m_h = n_h = 0` (877-882). -/
structure T where
  rank : Nat
  m : Nat
  n : Nat
  m_lhs : Nat
  n_lhs : Nat
  m_l : Nat
  n_l : Nat
  m_h : Nat
  n_h : Nat
  m_r : Nat
  n_r : Nat
  deriving DecidableEq, Repr

/-- One pass of the loop over `t_list` (latex_eT_zhz.py 829-882); `[]` for `continue`.  `zm` and `zn` are
`z_pair[1].m_t[i]` and `z_pair[1].n_t[i]`. -/
def buildT (mode : Mode) (t : Op) (u l : Q) (zm zn : Nat) : Except PyErr (List T) :=
  if u ≠ ⟨0, 0, 0, 0⟩ then .error .assertion
  else if t.m ≠ u.sum then (match mode with | .rhs => .error .notImplemented | .lhs => .ok [])
  else if t.n ≠ l.sum then (match mode with | .rhs => .error .notImplemented | .lhs => .ok [])
  else if l.r ≠ zm then .error .exception
  else if u.r ≠ zn then .error .exception
  else .ok [{ rank := t.rank, m := t.m, n := t.n, m_lhs := u.lhs, m_l := u.l, m_h := u.h, m_r := u.r,
              n_lhs := l.lhs, n_l := l.l, n_h := l.h, n_r := l.r }]

/-- `perm_list` for one choice of upper and lower assignment (latex_eT_zhz.py 826-882). -/
def permList (mode : Mode) (ts : List Op) (z : Z) (ul : List Q × List Q) : Except PyErr (List T) :=
  collect (fun p : Op × Q × Q × Nat × Nat => buildT mode p.1 p.2.1 p.2.2.1 p.2.2.2.1 p.2.2.2.2)
    (ts.zip (ul.1.zip (ul.2.zip (z.m_t.zip z.n_t))))

/-- The assignments of the t operators (latex_eT_zhz.py 807-814) -/
def tPerms' (lhs : Op) (ts : List Op) (h : HOp) (z : Z) : Except PyErr (List (List Q) × List (List Q)) :=
  match ts with
  | [t] => if t.rank = 0 then .ok ([[⟨0, 0, 0, 0⟩]], [[⟨0, 0, 0, 0⟩]]) else tPerms lhs ts h z
  | _ => tPerms lhs ts h z

/-- The value of the variable `perm_list` after the two inner loops (latex_eT_zhz.py 822-885): every pass
overwrites it, no pass leaves it as it was. -/
def lastPerm (mode : Mode) (ts : List Op) (z : Z) (cur : Option (List T)) :
    List (List Q × List Q) → Except PyErr (Option (List T))
  | [] => .ok cur
  | ul :: rest =>
    match permList mode ts z ul with
    | .error e => .error e
    | .ok p => lastPerm mode ts z (some p) rest

/-- The second loop over `annotated_z_permutations` (latex_eT_zhz.py 803-887): what it appends and the
value left in `perm_list`; reading `perm_list` before it was bound is an `UnboundLocalError`. -/
def assignLoop (lhs : Op) (h : HOp) (mode : Mode) (ts : List Op) (cur : Option (List T)) :
    List Z → Except PyErr (List (List T × Z) × Option (List T))
  | [] => .ok ([], cur)
  | z :: zs =>
    match tPerms' lhs ts h z with
    | .error e => .error e
    | .ok ul =>
      match lastPerm mode ts z cur (Zhz.pairs ul.1 ul.2) with
      | .error e => .error e
      | .ok none => .error .unbound
      | .ok (some p) =>
        match assignLoop lhs h mode ts (some p) zs with
        | .error e => .error e
        | .ok (out, cur') => .ok ((p, z) :: out, cur')

/-- One pass of the first loop over `annotated_z_permutations` (latex_eT_zhz.py 799-802): its results
are not used. -/
def probe (lhs : Op) (ts : List Op) (h : HOp) (z : Z) : Except PyErr (List Unit) :=
  match tPerms lhs ts h z with
  | .error e => .error e
  | .ok _ => .ok []

/-- The loop over `valid_permutations` (latex_eT_zhz.py 690-912).  `annotated_z_permutations` and
`perm_list` are carried from one pass to the next (both are set up before the loop or never).  The first
loop over `annotated_z_permutations` (799-802) only matters for the exception it may raise. -/
def annotateLoop (lhs : Op) (h : HOp) (mode : Mode) :
    List (List Op × Op) → List Z → Option (List T) → Except PyErr (List (List T × Z))
  | [], _, _ => .ok []
  | p :: rest, zs, cur =>
    match collect (probe lhs p.1 h) (zs ++ zList lhs h p) with
    | .error e => .error e
    | .ok _ =>
      match assignLoop lhs h mode p.1 cur (zs ++ zList lhs h p) with
      | .error e => .error e
      | .ok (out, cur') =>
        match annotateLoop lhs h mode rest (zs ++ zList lhs h p) cur' with
        | .error e => .error e
        | .ok more => .ok (out ++ more)

/-- `_generate_all_o_eT_h_z_connection_permutations` (latex_eT_zhz.py 669-914) -/
def annotate (lhs : Op) (h : HOp) (mode : Mode) (valid : List (List Op × Op)) :
    Except PyErr (List (List T × Z)) :=
  annotateLoop lhs h mode valid [] none

/-- A t as the tuple Python compares (field order of latex_eT_zhz.py 260-261). -/
def T.key (t : T) : List Nat :=
  [t.rank, t.m, t.n, t.m_lhs, t.n_lhs, t.m_l, t.n_l, t.m_h, t.n_h, t.m_r, t.n_r]

/-- `t_tuple.sort()` (latex_eT_zhz.py 937) -/
def sortT (ts : List T) : List T := sortBy (fun a b => lexLe a.key b.key) ts

/-- The elements of a list in order of first appearance. -/
def firsts {α : Type} [DecidableEq α] : List α → List α → List α
  | _, [] => []
  | seen, a :: l => if a ∈ seen then firsts seen l else a :: firsts (a :: seen) l

/-- `_remove_duplicate_t_tuple_permutations` (latex_eT_zhz.py 917-978): the unique list, each with its
count. -/
def removeDuplicates (l : List (List T × Z)) : List ((List T × Z) × Nat) :=
  let sorted := l.map fun p => (sortT p.1, p.2)
  (firsts [] sorted).map fun p => (p, sorted.count p)

/-- `connected_eT_lhs_operator_namedtuple` (latex_eT_zhz.py 242-245) -/
structure LhsC where
  rank : Nat
  m : Nat
  n : Nat
  m_l : Nat
  n_l : Nat
  m_t : List Nat
  n_t : List Nat
  m_h : Nat
  n_h : Nat
  m_r : Nat
  n_r : Nat
  deriving DecidableEq, Repr

/-- `connected_eT_h_z_operator_namedtuple` (latex_eT_zhz.py 246-249) -/
structure HC where
  rank : Nat
  m : Nat
  n : Nat
  m_lhs : Nat
  n_lhs : Nat
  m_t : List Nat
  n_t : List Nat
  m_l : Nat
  n_l : Nat
  m_r : Nat
  n_r : Nat
  deriving DecidableEq, Repr

/-- A labelled term: `[new_LHS, t_list, new_h, z_pair, prefactor_count]` (latex_eT_zhz.py 1066). -/
structure Term where
  lhs : LhsC
  ts : List T
  h : HC
  z : Z
  count : Nat
  deriving DecidableEq, Repr

/-- One pass of the loop of `_generate_explicit_eT_z_connections` (latex_eT_zhz.py 992-1066); `[]` for
`continue`. -/
def explicitOne (lhs : Op) (h : HOp) (p : (List T × Z) × Nat) : Except PyErr (List Term) :=
  let ts := p.1.1
  let z := p.1.2
  let lhs_m_t := ts.map T.n_lhs
  let lhs_n_t := ts.map T.m_lhs
  let h_m_t := ts.map T.n_h
  let h_n_t := ts.map T.m_h
  let lhs_m_h : Int := (lhs.m : Int) - (lhs_m_t.sum + z.n_lhs : Nat)
  let lhs_n_h : Int := (lhs.n : Int) - (lhs_n_t.sum + z.m_lhs : Nat)
  let h_m_lhs : Int := (h.m : Int) - (h_m_t.sum + z.n_h : Nat)
  let h_n_lhs : Int := (h.n : Int) - (h_n_t.sum + z.m_h : Nat)
  if 0 ≤ lhs_m_h ∧ 0 ≤ lhs_n_h then
    if 0 ≤ h_m_lhs ∧ 0 ≤ h_n_lhs then
      if h_m_lhs ≠ lhs_n_h then .ok []
      else if h_n_lhs ≠ lhs_m_h then .ok []
      else if lhs.m + h.m + (ts.map T.m).sum + z.m ≠ lhs.n + h.n + (ts.map T.n).sum + z.n then .ok []
      else .ok [
        { lhs := { rank := lhs.m + lhs.n, m := lhs.m, n := lhs.n, m_l := 0, n_l := 0,
                   m_t := lhs_m_t, n_t := lhs_n_t, m_h := lhs_m_h.toNat, n_h := lhs_n_h.toNat,
                   m_r := z.n_lhs, n_r := z.m_lhs }
          ts := ts
          h := { rank := h.m + h.n, m := h.m, n := h.n, m_lhs := h_m_lhs.toNat, n_lhs := h_n_lhs.toNat,
                 m_t := h_m_t, n_t := h_n_t, m_l := 0, n_l := 0, m_r := z.n_h, n_r := z.m_h }
          z := z, count := p.2 }]
    else .error .assertion
  else .error .assertion

/-- `_prepare_eTz_T_terms` (latex_eT_zhz.py 1838-1873); an empty list is an `IndexError`. -/
def prepareT : Series → Except PyErr (List (List Op))
  | .one op => .ok [[op]]
  | .lin [] => .error .index
  | .lin ops => .ok (ops.map fun t => [t])
  | .prods [] => .error .index
  | .prods ([] :: _) => .error .exception
  | .prods ps => .ok ps

/-- The body of the loop over `h` (latex_eT_zhz.py 1887-1992).  `term[2] != set()` is always true. -/
def filterForH (lhs : Op) (eT : List (List Op)) (zs : List Op) (mode : Mode) (h : HOp) :
    Except PyErr (List Term) :=
  if mode = .lhs ∧ h.n ≠ 0 then .ok []
  else
    match annotate lhs h mode (validPerms lhs eT h zs) with
    | .error e => .error e
    | .ok l => collect (explicitOne lhs h) (removeDuplicates l)

/-- `_filter_out_valid_eTz_terms` (latex_eT_zhz.py 1876-2005) with `Z_left = None`: what is appended to
`total_list`.  `_prepare_eTz_z_terms` (1792-1835) reads `z_right_terms[0]`. -/
def filterTerms (lhs : Op) (s : Series) (H : List HOp) (zs : List Op) (mode : Mode) :
    Except PyErr (List Term) :=
  if zs = [] then .error .index
  else
    match prepareT s with
    | .error e => .error e
    | .ok eT => collect (filterForH lhs eT zs mode) H

/-- The loop of `_build_third_eTz_term` (latex_eT_zhz.py 2027-2036). -/
def allTerms (lhs : Op) (ss : List Series) (H : List HOp) (zs : List Op) (mode : Mode) :
    Except PyErr (List Term) :=
  collect (fun s => filterTerms lhs s H zs mode) ss

/-! ## LaTeX of one term -/

/-- `if perms > 1: ...append(f'({perms})')` (latex_eT_zhz.py 1176-1179 and the like) -/
def choosePar (p : Pref) (a b : Nat) : Pref :=
  if Nat.choose a b > 1 then p.up (.num (Nat.choose a b)) (Nat.choose a b) else p

/-- `if count > 1: ...append(f'{count}!')` (latex_eT_zhz.py 1195-1198 and the like) -/
def factIf (p : Pref) (c : Nat) : Pref := if c > 1 then p.up (.fact c) c.factorial else p

/-- `if m > 1: denominator ... append(f'{m}!')` -/
def downIf (p : Pref) (m : Nat) : Pref := if m > 1 then p.down (.fact m) m.factorial else p

/-- one of the two blocks for h (latex_eT_zhz.py 1169-1198, 1200-1229) -/
def prefH (m m_lhs m_r : Nat) (m_t : List Nat) (p : Pref) : Pref :=
  if m > 1 then
    factIf (choosePar (choosePar (p.down (.fact m) m.factorial) m m_lhs) (m - m_lhs) m_r) m_t.sum
  else p

/-- the block for the upper labels of z (latex_eT_zhz.py 1233-1276), an assertion at its end -/
def prefZ (z : Z) (p : Pref) : Except PyErr Pref :=
  if z.m > 1 then
    if Nat.choose (z.m - z.m_lhs - z.m_h) z.m_t.sum = 1 then
      .ok (factIf (factIf (choosePar (choosePar (p.down (.fact z.m) z.m.factorial) z.m z.m_lhs)
        (z.m - z.m_lhs) z.m_h) z.m_h) z.m_t.sum)
    else .error .assertion
  else .ok p

/-- `_build_eThz_latex_prefactor` (latex_eT_zhz.py 1136-1346) up to the text.  The block for lower labels
of z (1278-1303) is left out: z has none (`generate_z_operator` with `only_ground_state`), and the
generator raises before any term is printed otherwise. -/
def prefactor (t : Term) : Except PyErr Pref :=
  match prefZ t.z (prefH t.h.n t.h.n_lhs t.h.n_r t.h.n_t (prefH t.h.m t.h.m_lhs t.h.m_r t.h.m_t ⟨[], [], 1, 1⟩)) with
  | .error e => .error e
  | .ok p => .ok (t.ts.foldl (fun p t => downIf (downIf p t.m) t.n) (downIf p t.ts.length))

/-- text of an entry: choices are written in parentheses -/
def renderFac : Fac → String
  | .num k => "(" ++ toString k ++ ")"
  | .fact k => toString k ++ "!"

/-- latex_eT_zhz.py 1338-1346 -/
def renderPref (p : Pref) : String :=
  let n := if p.num = [] then "1" else String.join (p.num.map renderFac)
  let d := if p.den = [] then "1" else String.join (p.den.map renderFac)
  if n = "1" ∧ d = "1" then "" else "\\frac{" ++ n ++ "}{" ++ d ++ "}"

/-- `_f_h_zR_contributions` + `_f_t_h_contributions` + `_f_t_zR_contributions` (latex_zhz.py 1119-1133,
latex_eT_zhz.py 1349-1388).  The eT classes are not the disconnected class tested in latex_zhz.py, so
its `else` branch runs. -/
def fCount (t : Term) : Except PyErr Nat :=
  if t.h.m_r ≠ t.z.n_h then .error .assertion
  else if (t.ts.zip t.h.n_t).all fun p => decide (p.1.m_h = p.2) then
    if (t.ts.zip t.z.n_t).all fun p => decide (p.1.m_r = p.2) then
      .ok (t.z.n_h + (t.ts.map T.m_h).sum + (t.ts.map T.m_r).sum)
    else .error .assertion
  else .error .assertion

/-- `_fbar_h_zR_contributions` + `_fbar_t_h_contributions` + `_fbar_t_zR_contributions` (latex_zhz.py
1136-1150, latex_eT_zhz.py 1363-1399); a connected t has `n_h >= 1` here unless only `m_h` is positive. -/
def fbarCount (t : Term) : Except PyErr Nat :=
  if t.h.n_r ≠ t.z.m_h then .error .assertion
  else if (t.ts.zip t.h.m_t).all fun p => decide (p.1.n_h = p.2) && (decide (p.1.m_h = 0) || decide (p.1.n_h ≥ 1)) then
    .ok (t.z.m_h + (t.ts.map T.n_h).sum + (t.ts.map T.n_r).sum)
  else .error .assertion

/-- The `offset_dict` (latex_eT_zhz.py 1706-1715).  `lower_h`, `lower_left_z` and `upper_left_z` stay
empty or unused: t has no upper labels and there is no left z. -/
structure Off where
  upper_h : List Piece
  upper_z : List Piece
  lower_z : List Piece
  s : Nat
  u : Nat
  deriving DecidableEq, Repr

/-- The subscript of one t (latex_eT_zhz.py 1477-1503) and the updated offsets.  t has no superscript
(`m = 0`, latex_eT_zhz.py 44), so 1446-1474 are left out; `n_l` is 0. -/
def tLabel (t : T) (o : Off) : List Piece × Off :=
  if t.n > 0 then
    let l : Piece := ⟨.magenta, at' zSummation o.s t.n_l⟩
    let b : Piece := ⟨.blue, at' zSummation (o.s + t.n_l) t.n_h⟩
    let r : Piece := ⟨.magenta, at' zSummation (o.s + t.n_l + t.n_h) t.n_r⟩
    let e : Piece := ⟨.red, at' zUnlinked o.u t.n_lhs⟩
    ([l, b, r, e],
      { o with upper_h := o.upper_h ++ [b], upper_z := o.upper_z ++ [r], s := o.s + t.n_l + t.n_h + t.n_r,
               u := o.u + t.n_lhs })
  else ([], o)

/-- `_build_eT_term_latex_labels` (latex_eT_zhz.py 1424-1512): `none` is the unit operator, printed as
soon as a t of rank 0 is met. -/
def tLabels : List T → Off → Option (List (List Piece)) × Off
  | [], o => (some [], o)
  | t :: ts, o =>
    if t.rank = 0 then (none, o)
    else
      match tLabels ts (tLabel t o).2 with
      | (none, o') => (none, o')
      | (some l, o') => (some ((tLabel t o).1 :: l), o')

/-- `_build_eT_hz_term_latex_labels` (latex_eT_zhz.py 1515-1571); `none` for rank 0. -/
def hLabel (h : HC) (o : Off) : Option Lab × Off :=
  if h.rank = 0 then (none, o)
  else
    let b : Piece := ⟨.blue, at' zSummation o.s h.n_r⟩
    let lower := if h.n > 0 then [b, ⟨.red, at' zUnlinked o.u h.n_lhs⟩] else []
    let o1 := if h.n > 0 then
      { o with upper_z := o.upper_z ++ [b], s := o.s + h.n_r, u := o.u + h.n_lhs } else o
    let c : Piece := ⟨.blue, at' zSummation o1.s h.m_r⟩
    let upper := if h.m > 0 then o1.upper_h ++ [c, ⟨.red, at' zUnlinked o1.u h.m_lhs⟩] else []
    let o2 := if h.m > 0 then
      { o1 with lower_z := o1.lower_z ++ [c], s := o1.s + h.m_r, u := o1.u + h.m_lhs } else o1
    (some ⟨upper, lower⟩, o2)

/-- `_build_eT_right_z_term` (latex_eT_zhz.py 1574-1632); `none` for rank 0. -/
def zLabel (z : Z) (o : Off) : Option Lab :=
  if z.rank = 0 then none
  else
    let lower := if z.n > 0 then o.lower_z ++ [⟨.red, at' zUnlinked o.u z.n_lhs⟩] else []
    let u := if z.n > 0 then o.u + z.n_lhs else o.u
    some ⟨if z.m > 0 then o.upper_z ++ [⟨.red, at' zUnlinked u z.m_lhs⟩] else [], lower⟩

/-- A printed term. -/
structure PTerm where
  f : Nat
  fbar : Nat
  pref : Pref
  ts : Option (List (List Piece))
  h : Option Lab
  z : Option Lab
  deriving DecidableEq, Repr

/-- The body of the loop of `_prepare_third_eTz_latex` (latex_eT_zhz.py 1675-1746); `[]` for `continue`. -/
def printOne (removeF : Bool) (t : Term) : Except PyErr (List PTerm) :=
  match fCount t with
  | .error e => .error e
  | .ok f =>
    if f > 0 ∧ removeF then .ok []
    else
      match fbarCount t with
      | .error e => .error e
      | .ok fb =>
        match prefactor t with
        | .error e => .error e
        | .ok p =>
          let a := tLabels t.ts ⟨[], [], [], 0, 0⟩
          let b := hLabel t.h a.2
          .ok [{ f := f, fbar := fb, pref := p, ts := a.1, h := b.1, z := zLabel t.z b.2 }]

/-- text of the labels of a factor -/
def labels (name : String) (upper lower : List Piece) : String :=
  name ++ "^{" ++ String.join (upper.map Piece.render) ++ "}_{" ++ String.join (lower.map Piece.render) ++ "}"

/-- `\left(i\dv{..}{\tau}\right)` -/
def deriv (s : String) : String := "\\left(i\\dv{" ++ s ++ "}{\\tau}\\right)"

/-- text of the t factors (latex_eT_zhz.py 1432-1433, 1505-1512) -/
def renderTs (mode : Mode) : Option (List (List Piece)) → String
  | none => "\\mathds{1}"
  | some l => String.join (l.map fun p => labels (match mode with | .rhs => "\\bt" | .lhs => "\\bs") [] p)

/-- text of h (latex_eT_zhz.py 1518-1523, 1566-1571); the f-string `f"\\mathds{1}"` prints `\mathds1`. -/
def renderH (mode : Mode) : Option Lab → String
  | none => match mode with | .rhs => "\\bh_0" | .lhs => "\\mathds1"
  | some l => match mode with
    | .rhs => labels "\\bh" l.upper l.lower
    | .lhs => deriv (labels "\\bt" l.upper l.lower)

/-- text of z (latex_eT_zhz.py 1581-1595, 1623-1632) -/
def renderZ (mode : Mode) (h : Option Lab) (z : Option Lab) : String :=
  let s := match z with | none => "\\bz_0" | some l => labels "\\bz" l.upper l.lower
  match mode with
  | .rhs => s
  | .lhs => if h = none then deriv s else s

/-- text of a term (latex_eT_zhz.py 1676-1746) -/
def PTerm.render (mode : Mode) (t : PTerm) : String :=
  (if t.f > 0 then (if t.f = 1 then "f" else "f^{" ++ toString t.f ++ "}") else "") ++
  (if t.fbar > 0 then (if t.fbar = 1 then "\\bar{f}" else "\\bar{f}^{" ++ toString t.fbar ++ "}") else "") ++
  renderPref t.pref ++ renderTs mode t.ts ++ renderH mode t.h ++ renderZ mode t.h t.z

/-- Terms in order of first appearance of their text (latex_eT_zhz.py 1748-1755). -/
def firstsBy {α : Type} (f : α → String) : List String → List α → List α
  | _, [] => []
  | seen, a :: l => if f a ∈ seen then firstsBy f seen l else a :: firstsBy f (f a :: seen) l

/-- The printed terms of an equation (latex_eT_zhz.py 1675-1758). -/
def printed (removeF : Bool) (mode : Mode) (l : List Term) : Except PyErr (List PTerm) :=
  match collect (printOne removeF) l with
  | .error e => .error e
  | .ok ps => .ok (firstsBy (PTerm.render mode) [] ps)

/-- latex_eT_zhz.py 1768-1779: how the texts are split over the lines when there are more than six
(`split_width` is 4). -/
def lines {α : Type} (l : List α) : List (List α) :=
  let w := 4
  ((List.range (l.length / w)).map fun i => (l.drop (i * w)).take w) ++
    (if l.length % w ≠ 0 then [l.drop (l.length - l.length % w)] else [])

/-- latex_eT_zhz.py 1762-1787 -/
def renderSum (l : List String) : String :=
  if l.length ≤ 6 then "(" ++ " + ".intercalate l ++ ")"
  else "\n" ++ ("\n" ++ "    " ++ "\\\\  &+  % split long equation\n").intercalate
    ((lines l).map fun x => " + ".intercalate x) ++ "\n"

/-- `_build_third_eTz_term` (latex_eT_zhz.py 2008-2047); `none` is the empty string of 2044-2045. -/
def third (removeF : Bool) (mode : Mode) (lhs : Op) (ss : List Series) (H : List HOp) (zs : List Op) :
    Except PyErr (Option (List PTerm)) :=
  match allTerms lhs ss H zs mode with
  | .error e => .error e
  | .ok [] => .ok none
  | .ok l =>
    match printed removeF mode l with
    | .error e => .error e
    | .ok ps => .ok (some ps)

/-- The right-hand side of one equation. -/
structure Equation where
  /-- `_build_first_z_term`, only for `'RHS'` -/
  first : Option (Option (List Char × List Char))
  third : Option (List PTerm)
  /-- `_build_fifth_z_term`, only for `'RHS'` -/
  fifth : Option (List Zhz.Fifth)
  deriving DecidableEq, Repr

/-- `_generate_eT_z_symmetric_latex_equations` (latex_eT_zhz.py 2053-2111) -/
def equation (gs removeF : Bool) (mode : Mode) (lhs : Op) (ss : List Series) (H : List HOp) (zs : List Op) :
    Except PyErr Equation :=
  if !gs then .error .notImplemented
  else
    match third removeF mode lhs ss H zs with
    | .error e => .error e
    | .ok t => .ok
      { first := if mode = .rhs then some (Zhz.firstZ lhs) else none
        third := t
        fifth := if mode = .rhs then some (Zhz.fifthZ lhs) else none }

/-- text of an equation (latex_eT_zhz.py 2071-2111) -/
def renderEquation (mode : Mode) (lhs : Op) (e : Equation) : String :=
  let first := match e.first with
    | none => ""
    | some none => "\\bh_{0,xb}(1-\\delta_{x\\gamma})"
    | some (some (u, l)) => "\\bh^{" ++ String.ofList u ++ "}_{" ++ String.ofList l ++ "}(1-\\delta_{x\\gamma})"
  let third := match e.third with
    | none => ""
    | some l => renderSum (l.map (PTerm.render mode))
  let fifth := match e.fifth with
    | none => ""
    | some f => "\\\\&-i\\sum\\Big(" ++
        joinPlus ((f.zip (List.range f.length)).map fun p => p.1.render lhs p.2) ++ "\\Big)"
  ((first ++ "\\\\&+\\sum\\Big(" ++ third ++ "\\Big)" ++ fifth).replace "^{}" "").replace "_{}" ""

/-- What is printed for one projection operator (latex_eT_zhz.py 2145-2266). -/
structure Section where
  omega : Op
  heading : Option String
  letters : List (Bool × Char)
  tUpper : List Char
  tLower : List Char
  gUpper : List Char
  gLower : List Char
  zUpper : List Char
  eqn : Equation
  deriving Repr

/-- One pass of the main loop (latex_eT_zhz.py 2145-2266); `[]` for `continue`. -/
def sectionFor (gs removeF : Bool) (mode : Mode) (ss : List Series) (H : List HOp) (zs : List Op)
    (omega prev : Op) : Except PyErr (List Section) :=
  if omega.m > 0 then .ok []
  else
    match Zhz.rankNames[omega.rank]? with
    | none => .error .index
    | some name =>
      match Zhz.omegaLetters omega with
      | .error e => .error e
      | .ok letters =>
        match equation gs removeF mode omega ss H zs with
        | .error e => .error e
        | .ok e => .ok
          [{ omega := omega
             heading := if omega.rank > prev.rank then some name else none
             letters := letters
             tUpper := slice summationIdx 0 omega.n, tLower := slice summationIdx omega.n omega.rank
             gUpper := slice summationIdx 0 omega.n, gLower := slice summationIdx omega.n omega.rank
             zUpper := slice summationIdx 0 omega.rank
             eqn := e }]

/-- `generate_eT_z_t_symmetric_latex` (latex_eT_zhz.py 2114-2284) after `_verify_eT_z_t_truncations`: the
sections written to the file. -/
def document (gs removeF : Bool) (mode : Mode) (hMax cc T eT pMax : Nat) : Except PyErr (List Section) :=
  match eTaylor T eT with
  | .error e => .error e
  | .ok ss =>
    collect (fun p => sectionFor gs removeF mode ss (Zhz.prunedH hMax) (Zhz.zOps cc gs) p.1 p.2)
      ((omegaOps cc pMax).zip (Zhz.previous (omegaOps cc pMax)))

/-- The text of a section (latex_eT_zhz.py 2159-2266). -/
def Section.render (mode : Mode) (s : Section) : String :=
  let str := fun (l : List Char) => String.ofList l
  let comments := "%\n%\n%\n%\n%\n\n"
  let head := match s.heading with
    | none => "\\vspace{2cm}"
    | some n => "\\paragraph{" ++ n.toLower.capitalize ++ " Equations}\n\n"
  let omega := if s.letters = [] then "1" else String.join (s.letters.map fun p =>
    (if p.1 then "\\up{" else "\\down{") ++ toString p.2 ++ "}")
  let t := "i\\dv{\\hat{\\bt}^{" ++ str s.tUpper ++ "}_{" ++
    (if s.tLower = [] then "\\gamma" else str s.tLower ++ ",\\gamma") ++ "}}{\\tau}"
  let g := "\\hat{G}^{" ++ str s.gUpper ++ "}_{" ++
    (if s.gLower = [] then "\\gamma\\gamma" else str s.gLower ++ ", \\gamma\\gamma") ++ "}"
  head ++ comments ++ "\\begin{equation}\n    \\hat{\\Omega} = " ++ omega ++ "\n\\qquad\\qquad\n    " ++ t ++ " = " ++
    g ++ "\n\\end{equation}\n\n" ++ comments ++ "\\begin{align}\\begin{split}\nLHS &=\n" ++
    (match mode with
      | .rhs => "    i\\Big(\\dv{\\hat{\\bz}^{" ++ str s.zUpper ++ "}_{\\gamma}}{\\tau}\\Big)" ++ "\n\\\\ RHS &=\n"
      | .lhs => "") ++ "%\n%\n" ++ renderEquation mode s.omega s.eqn ++ "\n\\end{split}\\end{align}\n\n"

end TF.ET
