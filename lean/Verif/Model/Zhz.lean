import Verif.Model.FullCC.Latex
import Mathlib.Data.Nat.Choose.Basic

/-!
# Model of `termfactory/latex_zhz.py` (lines 50-100, 422-1869)

Logging, the debug printers and the text constants of the document header are not modelled.
Python's exceptions are values of `PyErr`.  A left or right z operator that is absent (the
`general_operator_namedtuple(None, 0, 0, 0)` of lines 817, 824) is `none`.  `_build_z_latex_prefactor`
(1050-1117) and the functions of lines 104-419 are never called; they are not modelled.
-/

namespace TF.Zhz

open TF.Py TF.CC

/-- `generate_z_operator` (latex_zhz.py 78-100), its `operator_list`. -/
def zOps (cc : Nat) (gs : Bool) : List Op :=
  ((mnPairs cc).filter fun p => !(gs && decide (p.2 > 0))).map fun p =>
    { name := "z" ++ (if p.1 > 0 then "^" ++ toString p.1 else "") ++
        (if p.2 > 0 then "_" ++ toString p.2 else ""), rank := p.1 + p.2, m := p.1, n := p.2 }

/-- A labelled z operator: the four namedtuples of latex_zhz.py 55-72.  `m_z`/`n_z` are the fields
`m_r`/`n_r` of a left z and `m_l`/`n_l` of a right z.  Whether the connected or the disconnected class
is used is the function `Z.connected`. -/
structure Z where
  rank : Nat
  m : Nat
  n : Nat
  m_lhs : Nat
  n_lhs : Nat
  m_h : Nat
  n_h : Nat
  m_z : Nat
  n_z : Nat
  deriving DecidableEq, Repr

/-- The class chosen in latex_zhz.py 665-669, 688-692. -/
def Z.connected (z : Z) : Bool := !(z.m_h == 0 && z.n_h == 0)

/-- `connected_lhs_operator_namedtuple` -/
structure LhsC where
  rank : Nat
  m : Nat
  n : Nat
  m_l : Nat
  n_l : Nat
  m_r : Nat
  n_r : Nat
  m_h : Nat
  n_h : Nat
  deriving DecidableEq, Repr

/-- `connected_h_z_operator_namedtuple` -/
structure HC where
  rank : Nat
  m : Nat
  n : Nat
  m_l : Nat
  n_l : Nat
  m_r : Nat
  n_r : Nat
  m_lhs : Nat
  n_lhs : Nat
  deriving DecidableEq, Repr

/-- One generated term `[new_LHS, new_h, [z_left, z_right]]`. -/
structure Term where
  lhs : LhsC
  h : HC
  left : Option Z
  right : Option Z
  deriving DecidableEq, Repr

/-- What the code reads from a slot: the operator, or the placeholder with `m = n = 0`. -/
def slot : Option Op → Op
  | none => { name := "", rank := 0, m := 0, n := 0 }
  | some z => z

/-- `_z_joining_with_z_terms` (latex_zhz.py 422-459). -/
def zJoinsItself (lhs : Op) (h : HOp) (l r : Op) : Bool :=
  decide (l.m > lhs.n + h.n + r.n) || decide (l.n > lhs.m + h.m + r.m) ||
  decide (r.m > lhs.n + h.n + l.n) || decide (r.n > lhs.m + h.m + l.m)

/-- `_generate_valid_z_n_operator_permutations` (latex_zhz.py 462-507). -/
def validPerms (lhs : Op) (h : HOp) (all : List (Option Op × Option Op)) : List (Option Op × Option Op) :=
  all.filter fun p =>
    let l := slot p.1
    let r := slot p.2
    decide (lhs.m + h.m + l.m + r.m = lhs.n + h.n + l.n + r.n) && !zJoinsItself lhs h l r &&
      !omegaJoinsItself lhs h [l, r] && !hJoinsItself lhs h [l, r]

/-- How the indices of a z operator are distributed: to the left-hand side, to h, to the other z. -/
structure Dist where
  lhs : Nat
  h : Nat
  z : Nat
  deriving DecidableEq, Repr

/-- latex_zhz.py 528-531, 535-538 -/
def dists (M : Nat) : List Dist :=
  (((List.range (M + 1)).flatMap fun a => (List.range (M + 1)).map fun b => (a, b)).filter
    fun p => decide (p.1 + p.2 ≤ M)).map fun p => ⟨p.1, p.2, M - (p.1 + p.2)⟩

/-- `it.product(x, y)` for two lists -/
def pairs {α β : Type} (xs : List α) (ys : List β) : List (α × β) := xs.flatMap fun x => ys.map fun y => (x, y)

/-- `_generate_all_valid_z_connection_permutations` (latex_zhz.py 510-620), the upper (555-572) and
lower (588-608) assignments. -/
def connectionPerms (lhs : Op) (h : HOp) (l r : Op) : List (Dist × Dist) × List (Dist × Dist) :=
  ((pairs (dists l.m) (dists r.m)).filter fun p =>
      decide (p.1.h + p.2.h ≤ h.n) && decide (p.1.lhs + p.2.lhs ≤ lhs.n) && decide (p.1.z ≤ r.n) &&
        decide (p.2.z ≤ l.n),
   (pairs (dists l.n) (dists r.n)).filter fun p =>
      decide (p.1.h + p.2.h ≤ h.m) && decide (p.1.lhs + p.2.lhs ≤ lhs.m) && decide (p.1.z ≤ r.m) &&
        decide (p.2.z ≤ l.m))

/-- The labelled operator of one slot (latex_zhz.py 646-669, 671-692). -/
def buildZ (z : Option Op) (u l : Dist) : Except PyErr (Option Z) :=
  match z with
  | none => if u = ⟨0, 0, 0⟩ ∧ l = ⟨0, 0, 0⟩ then .ok none else .error .assertion
  | some z => .ok (some
      { rank := z.rank, m := z.m, n := z.n, m_lhs := u.lhs, m_h := u.h, m_z := u.z,
        n_lhs := l.lhs, n_h := l.h, n_z := l.z })

/-- The check of the contractions between the two z operators (latex_zhz.py 693-705). -/
def zzAgree : Option Z → Option Z → Bool
  | some l, some r => decide (l.m_z = r.n_z) && decide (l.n_z = r.m_z)
  | _, _ => true

/-- One pass of the two inner loops (latex_zhz.py 636-708). -/
def annotateOne (p : Option Op × Option Op) (ul : (Dist × Dist) × (Dist × Dist)) :
    Except PyErr (List (Option Z × Option Z)) :=
  match buildZ p.1 ul.1.1 ul.2.1 with
  | .error e => .error e
  | .ok l =>
    match buildZ p.2 ul.1.2 ul.2.2 with
    | .error e => .error e
    | .ok r => .ok (if zzAgree l r then [(l, r)] else [])

/-- `_generate_all_o_h_z_connection_permutations` (latex_zhz.py 623-717). -/
def annotate (lhs : Op) (h : HOp) (perms : List (Option Op × Option Op)) :
    Except PyErr (List (Option Z × Option Z)) :=
  collect (fun p =>
    let c := connectionPerms lhs h (slot p.1) (slot p.2)
    collect (annotateOne p) (pairs c.1 c.2)) perms

/-- `z.f if z_exists else 0` (latex_zhz.py 748-766) -/
def get (f : Z → Nat) : Option Z → Nat
  | none => 0
  | some z => f z

/-- The body of the loop of `_generate_explicit_z_connections` (latex_zhz.py 730-801); `[]` for
`continue`. -/
def explicitOne (lhs : Op) (h : HOp) (z : Option Z × Option Z) : Except PyErr (List Term) :=
  if z.1 = none ∧ z.2 = none then .error .assertion
  else
    let lhs_m_h : Int := (lhs.m : Int) - (get Z.n_lhs z.1 + get Z.n_lhs z.2)
    let lhs_n_h : Int := (lhs.n : Int) - (get Z.m_lhs z.1 + get Z.m_lhs z.2)
    let h_m_lhs : Int := (h.m : Int) - (get Z.n_h z.1 + get Z.n_h z.2)
    let h_n_lhs : Int := (h.n : Int) - (get Z.m_h z.1 + get Z.m_h z.2)
    if 0 ≤ lhs_m_h ∧ 0 ≤ lhs_n_h then
      if 0 ≤ h_m_lhs ∧ 0 ≤ h_n_lhs then
        if h_m_lhs ≠ lhs_n_h then .ok []
        else if h_n_lhs ≠ lhs_m_h then .ok []
        else .ok [
          { lhs := { rank := lhs.m + lhs.n, m := lhs.m, n := lhs.n,
                     m_l := get Z.n_lhs z.1, n_l := get Z.m_lhs z.1,
                     m_r := get Z.n_lhs z.2, n_r := get Z.m_lhs z.2,
                     m_h := lhs_m_h.toNat, n_h := lhs_n_h.toNat }
            h := { rank := h.m + h.n, m := h.m, n := h.n,
                   m_l := get Z.n_h z.1, n_l := get Z.m_h z.1,
                   m_r := get Z.n_h z.2, n_r := get Z.m_h z.2,
                   m_lhs := h_m_lhs.toNat, n_lhs := h_n_lhs.toNat }
            left := z.1, right := z.2 }]
      else .error .assertion
    else .error .assertion

/-- `_generate_explicit_z_connections` (latex_zhz.py 720-803). -/
def explicitConnections (lhs : Op) (h : HOp) (us : List (Option Z × Option Z)) : Except PyErr (List Term) :=
  collect (explicitOne lhs h) us

/-- The slots of the two sides (latex_zhz.py 813-841).  Both sides missing: `None.operator_list` is an
`AttributeError`; an empty operator list is an `IndexError`. -/
def slots : Option (List Op) → Option (List Op) → Except PyErr (List (Option Op × Option Op))
  | none, none => .error .attribute
  | none, some r => if r = [] then .error .index else .ok (r.map fun z => (none, some z))
  | some l, none => if l = [] then .error .index else .ok (l.map fun z => (some z, none))
  | some l, some r =>
    if r = [] ∨ l = [] then .error .index else .ok (pairs (l.map some) (r.map some))

/-- The body of the loop over `h` (latex_zhz.py 856-898).  `term[2] != set()` compares a list with a
set and is always true. -/
def filterForH (lhs : Op) (all : List (Option Op × Option Op)) (h : HOp) : Except PyErr (List Term) :=
  let valid := validPerms lhs h all
  if valid = [] then .ok []
  else
    match annotate lhs h valid with
    | .error e => .error e
    | .ok zs => explicitConnections lhs h zs

/-- `_filter_out_valid_z_terms` (latex_zhz.py 806-900): the terms appended to `total_list`. -/
def filterTerms (lhs : Op) (H : List HOp) (zl zr : Option (List Op)) : Except PyErr (List Term) :=
  match slots zl zr with
  | .error e => .error e
  | .ok all => collect (filterForH lhs all) H

/-! ## Labels -/

/-- `z_summation_indices` (common_imports.py 33) -/
def zSummation : List Char := "klmno".toList

/-- `z_unlinked_indices` (common_imports.py 34) -/
def zUnlinked : List Char := "yxwvuts".toList

/-- The colour command wrapped around a group of letters. -/
inductive Color | plain | blue | red | magenta
  deriving DecidableEq, Repr

/-- A group of letters. -/
structure Piece where
  color : Color
  letters : List Char
  deriving DecidableEq, Repr

/-- The superscript and subscript of a factor. -/
structure Lab where
  upper : List Piece
  lower : List Piece
  deriving DecidableEq, Repr

/-- the text of a group -/
def Piece.render (p : Piece) : String :=
  match p.color with
  | .plain => String.ofList p.letters
  | .blue => "\\blue{" ++ String.ofList p.letters ++ "}"
  | .red => "\\red{" ++ String.ofList p.letters ++ "}"
  | .magenta => "\\magenta{" ++ String.ofList p.letters ++ "}"

/-- the text of a factor with its labels; `none` is a factor of rank 0 -/
def renderLab (name : String) : Option Lab → String
  | none => name ++ "_0"
  | some l => name ++ "^{" ++ String.join (l.upper.map Piece.render) ++ "}_{" ++
      String.join (l.lower.map Piece.render) ++ "}"

/-- `letters[a:a + k]` -/
def at' (l : List Char) (a k : Nat) : List Char := slice l a (a + k)

/-- `_build_left_z_term` (latex_zhz.py 904-959) with `color=True` (its only use). -/
def leftLabels (z : Z) : Option Lab :=
  if z.rank = 0 then none
  else some
    { upper := if z.m > 0 then
        [⟨.plain, at' zSummation 0 z.m_h⟩, ⟨.blue, at' zSummation z.m_h z.m_z⟩,
         ⟨.red, at' zUnlinked 0 z.m_lhs⟩] else []
      lower := if z.n > 0 then
        [⟨.plain, at' zSummation (z.m_h + z.m_z) z.n_h⟩, ⟨.blue, at' zSummation (z.m_h + z.m_z + z.n_h) z.n_z⟩,
         ⟨.red, at' zUnlinked z.m_lhs z.n_lhs⟩] else [] }

/-- The `offset_dict` of `_build_hz_term_latex_labels`. -/
structure HOff where
  left_upper : Nat
  summation : Nat
  unlinked : Nat

/-- `_build_hz_term_latex_labels` (latex_zhz.py 962-1001).  The offsets advance after the subscript
only when there is one. -/
def hLabels (h : HC) (o : HOff) : Option Lab :=
  if h.rank = 0 then none
  else
    let s := if h.n > 0 then o.summation + h.n_r else o.summation
    let u := if h.n > 0 then o.unlinked + h.n_lhs else o.unlinked
    some
    { lower := if h.n > 0 then
        [⟨.blue, at' zSummation 0 h.n_l⟩, ⟨.blue, at' zSummation o.summation h.n_r⟩,
         ⟨.red, at' zUnlinked o.unlinked h.n_lhs⟩] else []
      upper := if h.m > 0 then
        [⟨.blue, at' zSummation o.left_upper h.m_l⟩, ⟨.blue, at' zSummation s h.m_r⟩,
         ⟨.red, at' zUnlinked u h.m_lhs⟩] else [] }

/-- The `offset_dict` of `_build_right_z_term`. -/
structure ROff where
  left_lower : Nat
  left_upper : Nat
  h_lower : Nat
  h_upper : Nat
  unlinked : Nat

/-- `_build_right_z_term` (latex_zhz.py 1004-1046). -/
def rightLabels (z : Z) (o : ROff) : Option Lab :=
  if z.rank = 0 then none
  else
    let u := if z.n > 0 then o.unlinked + z.n_lhs else o.unlinked
    some
    { lower := if z.n > 0 then
        [⟨.magenta, at' zSummation o.left_lower z.n_z⟩, ⟨.blue, at' zSummation o.h_lower z.n_h⟩,
         ⟨.red, at' zUnlinked o.unlinked z.n_lhs⟩] else []
      upper := if z.m > 0 then
        [⟨.magenta, at' zSummation o.left_upper z.m_z⟩, ⟨.blue, at' zSummation o.h_upper z.m_h⟩,
         ⟨.red, at' zUnlinked u z.m_lhs⟩] else [] }

/-! ## Prefactors -/

/-- An entry of the numerator or denominator list. -/
inductive Fac | num (k : Nat) | fact (k : Nat)
  deriving DecidableEq, Repr

/-- the text of an entry -/
def Fac.render : Fac → String
  | .num k => toString k
  | .fact k => toString k ++ "!"

/-- The four accumulators of `_build_hz_latex_prefactor`. -/
structure Pref where
  num : List Fac
  den : List Fac
  numVal : Nat
  denVal : Nat
  deriving DecidableEq, Repr

/-- `value *= k; list.append(..)` -/
def Pref.up (p : Pref) (f : Fac) (v : Nat) : Pref := { p with num := p.num ++ [f], numVal := p.numVal * v }
/-- `value *= k; list.append(..)` -/
def Pref.down (p : Pref) (f : Fac) (v : Nat) : Pref := { p with den := p.den ++ [f], denVal := p.denVal * v }

/-- `if number > 1:` (latex_zhz.py 1293-1295, 1303-1305, 1314-1316, 1330-1332) -/
def Pref.choose (p : Pref) (a b : Nat) : Pref :=
  if Nat.choose a b > 1 then p.up (.num (Nat.choose a b)) (Nat.choose a b) else p

/-- one of the two blocks for h (latex_zhz.py 1287-1295, 1297-1305) -/
def Pref.hBlock (m m_r : Nat) (p : Pref) : Pref :=
  if m > 1 then (p.down (.fact m) m.factorial).choose m m_r else p

/-- one of the two blocks for z (latex_zhz.py 1307-1321, 1323-1337) -/
def Pref.zBlock (m m_lhs m_h : Nat) (p : Pref) : Pref :=
  if m > 1 then
    let p := (p.down (.fact m) m.factorial).choose m m_lhs
    if m_h > 1 then p.up (.fact m_h) m_h.factorial else p
  else p

/-- `_build_hz_latex_prefactor` (latex_zhz.py 1245-1366) up to the text. -/
def hzPrefactor (h : HC) (zl : Option Z) (zr : Z) : Except PyErr Pref :=
  if zl ≠ none then .error .notImplemented
  else .ok (Pref.zBlock zr.n zr.n_lhs zr.n_h (Pref.zBlock zr.m zr.m_lhs zr.m_h
    (Pref.hBlock h.n h.n_r (Pref.hBlock h.m h.m_r ⟨[], [], 1, 1⟩))))

/-- The text of a prefactor (latex_zhz.py 1345-1366); `simplify` is `simplify_flag`. -/
def Pref.render (simplify : Bool) (p : Pref) : String :=
  if simplify then
    let q : Rat := mkRat p.numVal p.denVal
    if q = 1 then "" else "\\frac{" ++ toString q.num ++ "}{" ++ toString q.den ++ "}"
  else
    let n := if p.num = [] then "1" else "*".intercalate (p.num.map Fac.render)
    let d := if p.den = [] then "1" else String.join (p.den.map Fac.render)
    if n = "1" ∧ d = "1" then "" else "\\frac{" ++ n ++ "}{" ++ d ++ "}"

/-! ## Printing -/

/-- A printed term. -/
structure PTerm where
  disconnected : Bool
  f : Nat
  fbar : Nat
  pref : Option Pref
  left : Option (Option Lab)
  h : Option Lab
  right : Option (Option Lab)
  deriving DecidableEq, Repr

/-- The text of a term (latex_zhz.py 1189-1224, 1389-1430, 1473-1529). -/
def PTerm.render (t : PTerm) : String :=
  let s := renderF t.f t.fbar ++ (match t.pref with | none => "" | some p => p.render false) ++
    (match t.left with | none => "" | some l => renderLab "\\bz" l) ++ renderLab "\\bh" t.h ++
    (match t.right with | none => "" | some l => renderLab "\\bz" l)
  if t.disconnected then "\\disconnected{" ++ s ++ "}" else s

/-- The f and fbar counters of a z and h (latex_zhz.py 1120-1157): `a` is the z's number and `b` is the
one recorded by h. -/
def contribution (z : Option Z) (a : Z → Nat) (b : Nat) : Except PyErr Nat :=
  match z with
  | none => .error .attribute
  | some z =>
    if z.connected then (if a z = b then .ok (a z) else .error .assertion)
    else if b = 0 then .ok 0 else .error .assertion

/-- `_f_zL_zR_contributions`, `_fbar_zL_zR_contributions` (latex_zhz.py 1160-1169) -/
def contributionZZ (a b : Nat) : Except PyErr Nat := if a = b then .ok a else .error .assertion

/-- The body of the loop of `_prepare_second_z_latex` (latex_zhz.py 1185-1227). -/
def secondTerm (removeF printPref : Bool) (t : Term) : Except PyErr (List PTerm) :=
  match contribution t.left Z.m_h t.h.n_l with
  | .error e => .error e
  | .ok f =>
    if removeF && decide (f > 0) then .ok []
    else
      match contribution t.left Z.n_h t.h.m_l with
      | .error e => .error e
      | .ok fbar =>
        if printPref then .error .notImplemented
        else
          match t.left with
          | none => .error .attribute
          | some z => .ok [
              { disconnected := false, f := f, fbar := fbar, pref := none, left := some (leftLabels z)
                h := hLabels t.h ⟨z.m - z.m_lhs, z.rank - z.m_lhs - z.n_lhs, z.m_lhs + z.n_lhs⟩
                right := none }]

/-- The body of the loop of `_prepare_third_z_latex` (latex_zhz.py 1381-1430). -/
def thirdTerm (removeF printPref : Bool) (t : Term) : Except PyErr (List PTerm) :=
  match contribution t.right Z.n_h t.h.m_r with
  | .error e => .error e
  | .ok f =>
    if removeF && decide (f > 0) then .ok []
    else
      match contribution t.right Z.m_h t.h.n_r with
      | .error e => .error e
      | .ok fbar =>
        match t.right with
        | none => .error .attribute
        | some z =>
          match hzPrefactor t.h none z with
          | .error e => .error e
          | .ok p => .ok [
              { disconnected := false, f := f, fbar := fbar, pref := if printPref then some p else none
                left := none, h := hLabels t.h ⟨0, 0, 0⟩
                right := some (rightLabels z ⟨0, 0, t.h.n_r, 0, t.h.m_lhs + t.h.n_lhs⟩) }]

/-- the f counters of the fourth term (latex_zhz.py 1470-1488) -/
def add3 (a b c : Except PyErr Nat) : Except PyErr Nat :=
  match a with
  | .error e => .error e
  | .ok a =>
    match b with
    | .error e => .error e
    | .ok b =>
      match c with
      | .error e => .error e
      | .ok c => .ok (a + b + c)

/-- The body of the loop of `_prepare_fourth_z_latex` (latex_zhz.py 1461-1532). -/
def fourthTerm (removeF printPref : Bool) (t : Term) : Except PyErr (List PTerm) :=
  match t.left, t.right with
  | some l, some r =>
    match add3 (contribution t.left Z.m_h t.h.n_l) (contribution t.right Z.n_h t.h.m_r)
        (contributionZZ l.m_z r.n_z) with
    | .error e => .error e
    | .ok f =>
      if removeF && decide (f > 0) then .ok []
      else
        match add3 (contribution t.left Z.n_h t.h.m_l) (contribution t.right Z.m_h t.h.n_r)
            (contributionZZ l.n_z r.m_z) with
        | .error e => .error e
        | .ok fbar =>
          if printPref then .error .notImplemented
          else
            let o : HOff := ⟨l.m - l.m_lhs, l.rank - l.m_lhs - l.n_lhs, l.m_lhs + l.n_lhs⟩
            .ok [
              { disconnected := !l.connected || !r.connected, f := f, fbar := fbar, pref := none
                left := some (leftLabels l), h := hLabels t.h o
                right := some (rightLabels r ⟨l.m_h, o.left_upper + l.n_h, o.summation + t.h.n_r,
                  o.summation, o.unlinked + t.h.m_lhs + t.h.n_lhs⟩) }]
  | _, _ => .error .assertion

/-- `xs[k:]` for `k ≤ 0`: `k = 0` is the whole list, `-k` counts from the end. -/
def sliceFromEnd {α : Type} (xs : List α) (back : Nat) : List α :=
  if back = 0 then xs else xs.drop (xs.length - back)

/-- The lines of a printed sum (latex_zhz.py 1227-1239, 1432-1443, 1535-1543); `w` is `split_width`. -/
def lines {α : Type} (w : Nat) (l : List α) : List (List α) :=
  if l.length < w * 2 then [l]
  else ((List.range (l.length / w)).map fun i => slice l (i * w) ((i + 1) * w)) ++
    [sliceFromEnd l (w - 1 - l.length % w)]

/-- The text of a sum; the third variant does not close a split sum (latex_zhz.py 1242, 1446, 1545). -/
def renderSum (close : Bool) (l : List PTerm) : String :=
  if l.length < 7 * 2 then "(" ++ joinPlus (l.map PTerm.render) ++ ")"
  else "(\n" ++ splitText.intercalate ((lines 7 l).map fun x => joinPlus (x.map PTerm.render)) ++ "\n" ++
    (if close then ")" else "")

/-- `_build_second_z_term`, `_build_third_z_term`, `_build_fourth_z_term` (latex_zhz.py 1574-1622):
`none` when there are no terms. -/
def build (prepare : Term → Except PyErr (List PTerm)) (ts : Except PyErr (List Term)) :
    Except PyErr (Option (List PTerm)) :=
  match ts with
  | .error e => .error e
  | .ok ts =>
    if ts = [] then .ok none
    else
      match collect prepare ts with
      | .error e => .error e
      | .ok l => .ok (some l)

/-- latex_zhz.py 1574-1589 -/
def secondZ (removeF : Bool) (lhs : Op) (H : List HOp) (zs : List Op) : Except PyErr (Option (List PTerm)) :=
  build (secondTerm removeF false) (filterTerms lhs H (some zs) none)

/-- latex_zhz.py 1592-1607 -/
def thirdZ (removeF : Bool) (lhs : Op) (H : List HOp) (zs : List Op) : Except PyErr (Option (List PTerm)) :=
  build (thirdTerm removeF true) (filterTerms lhs H none (some zs))

/-- latex_zhz.py 1610-1625 -/
def fourthZ (removeF : Bool) (lhs : Op) (H : List HOp) (zs : List Op) : Except PyErr (Option (List PTerm)) :=
  build (fourthTerm removeF false) (filterTerms lhs H (some zs) (some zs))

/-- `_build_first_z_term` (latex_zhz.py 1549-1571): superscript and subscript of h, `none` for rank 0. -/
def firstZ (lhs : Op) : Option (List Char × List Char) :=
  if lhs.rank = 0 then none
  else some (slice summationIdx 0 lhs.n, slice summationIdx lhs.n (lhs.n + lhs.m))

/-- One product of the fifth term: superscript and subscript of the differentiated t, superscript of
z. -/
structure Fifth where
  tUpper : List Char
  tLower : List Char
  zUpper : List Char
  deriving DecidableEq, Repr

/-- `_build_fifth_z_term` (latex_zhz.py 1628-1663) -/
def fifthZ (lhs : Op) : List Fifth :=
  (List.range (lhs.n + 1)).map fun z_m =>
    { tUpper := slice summationIdx 0 (lhs.n - z_m)
      tLower := slice summationIdx lhs.n (lhs.n + lhs.m)
      zUpper := slice summationIdx (lhs.rank - z_m) lhs.rank }

/-- The text of one product (latex_zhz.py 1637-1661); `l` and `z_m` say which `_0` forms are used. -/
def Fifth.render (lhs : Op) (z_m : Nat) (x : Fifth) : String :=
  let t := if lhs.m = 0 ∧ lhs.n - z_m = 0 then "\\hat{\\bt}_{0, \\gamma}"
    else "\\hat{\\bt}" ++ (if x.tUpper = [] then "" else "^{" ++ String.ofList x.tUpper ++ "}") ++
      (if x.tLower = [] then "_{\\gamma}" else "_{" ++ String.ofList x.tLower ++ ", \\gamma}")
  "\\dv{" ++ t ++ "}{\\tau}\\," ++
    (if z_m = 0 then "\\hat{\\bz}_{0, \\gamma}" else "\\hat{\\bz}^{" ++ String.ofList x.zUpper ++ "}_{\\gamma}")

/-- The right-hand side of one equation. -/
structure Equation where
  first : Option (List Char × List Char)
  third : Option (List PTerm)
  fifth : List Fifth
  deriving DecidableEq, Repr

/-- `_generate_z_symmetric_latex_equations` (latex_zhz.py 1667-1718). -/
def equation (gs removeF : Bool) (lhs : Op) (H : List HOp) (zs : List Op) : Except PyErr Equation :=
  if !gs then .error .notImplemented
  else
    match thirdZ removeF lhs H zs with
    | .error e => .error e
    | .ok t => .ok { first := firstZ lhs, third := t, fifth := fifthZ lhs }

/-- The text of an equation (latex_zhz.py 1687-1717). -/
def renderEquation (lhs : Op) (e : Equation) : String :=
  let first := match e.first with
    | none => "\\bh_{0,xb}(1-\\delta_{x\\gamma})"
    | some (u, l) => "\\bh^{" ++ String.ofList u ++ "}_{" ++ String.ofList l ++ "}(1-\\delta_{x\\gamma})"
  let third := match e.third with
    | none => ""
    | some l => renderSum false l
  let fifth := joinPlus ((e.fifth.zip (List.range e.fifth.length)).map fun p => p.1.render lhs p.2)
  ((first ++ "\\\\&+\\sum\\Big(" ++ third ++ "\\Big)(1-\\delta_{cb})" ++ "\\\\&-i\\sum\\Big(" ++ fifth ++
    "\\Big)").replace "^{}" "").replace "_{}" ""

/-- The Hamiltonian after pruning (latex_zhz.py 1736-1742) -/
def prunedH (hMax : Nat) : List HOp :=
  (hamiltonian hMax).filter fun t => decide (t.rank < 3) || t.m == 0

/-- `rank_name_list` (latex_zhz.py 1746-1748) -/
def rankNames : List String :=
  ["0 order", "LINEAR", "QUADRATIC", "CUBIC", "QUARTIC", "QUINTIC", "SEXTIC", "SEPTIC", "OCTIC"]

/-- The letters of the projection operator, `true` for `\up` (latex_zhz.py 1786-1792). -/
def omegaLetters (omega : Op) : Except PyErr (List (Bool × Char)) :=
  collect (fun p : Char × Nat =>
    if p.1 = 'd' then
      match summationIdx[p.2]? with
      | none => .error .index
      | some c => .ok [(true, c)]
    else if p.1 = 'b' then
      match summationIdx[p.2]? with
      | none => .error .index
      | some c => .ok [(false, c)]
    else .ok []) (omega.name.toList.zip (List.range omega.name.toList.length))

/-- What is printed for one projection operator (latex_zhz.py 1752-1850). -/
structure Section where
  omega : Op
  /-- `some` a heading, `none` a vertical space (1764-1768) -/
  heading : Option String
  letters : List (Bool × Char)
  /-- labels of the differentiated t (1770-1781) -/
  tUpper : List Char
  tLower : List Char
  /-- labels of G (1796-1799) -/
  gUpper : List Char
  gLower : List Char
  /-- superscript of the differentiated z (1833-1840) -/
  zUpper : List Char
  eqn : Equation
  deriving Repr

/-- One pass of the main loop (latex_zhz.py 1750-1850); `prev` is `operator_list[i-1]`. -/
def sectionFor (gs removeF : Bool) (H : List HOp) (zs : List Op) (omega prev : Op) : Except PyErr Section :=
  match rankNames[omega.rank]? with
  | none => .error .index
  | some name =>
    match omegaLetters omega with
    | .error e => .error e
    | .ok letters =>
      match equation gs removeF omega H zs with
      | .error e => .error e
      | .ok e => .ok
        { omega := omega
          heading := if omega.rank > prev.rank then some name else none
          letters := letters
          tUpper := slice summationIdx 0 omega.n, tLower := slice summationIdx omega.n omega.rank
          gUpper := slice summationIdx 0 omega.n, gLower := slice summationIdx omega.n omega.rank
          zUpper := slice summationIdx 0 omega.rank
          eqn := e }

/-- `operator_list[i-1]` for every `i` (Python's `[-1]` is the last element) -/
def previous (l : List Op) : List Op :=
  match l.getLast? with
  | none => []
  | some z => z :: l.dropLast

/-- `generate_z_t_symmetric_latex` (latex_zhz.py 1721-1869): the sections written to the file. -/
def document (gs removeF : Bool) (hMax cc pMax : Nat) : Except PyErr (List Section) :=
  collect (fun p => one (sectionFor gs removeF (prunedH hMax) (zOps cc gs) p.1 p.2))
    ((omegaOps cc pMax).zip (previous (omegaOps cc pMax)))

/-- The text of a section (latex_zhz.py 1764-1850). -/
def Section.render (s : Section) : String :=
  let str := fun (l : List Char) => String.ofList l
  let comments := "%\n%\n%\n%\n%\n\n"
  let head := match s.heading with
    | none => "\\vspace{2cm}"
    | some n => "\\paragraph{" ++ n.toLower.capitalize ++ " Equations}\n\n"
  let omega := if s.letters = [] then "1" else String.join (s.letters.map fun p =>
    (if p.1 then "\\up{" else "\\down{") ++ toString p.2 ++ "}")
  let t := "i\\dv{\\hat{\\bt}^{" ++ str s.tUpper ++ "}_{" ++
    (if s.tLower = [] then "\\gamma" else str s.tLower ++ ",\\gamma") ++ "}}{\\tau}"
  let g := "\\hat{G}^{" ++ str s.gUpper ++ "}_{" ++
    (if s.gLower = [] then "\\gamma\\gamma" else str s.gLower ++ ", \\gamma\\gamma") ++ "}"
  head ++ comments ++ "\\begin{equation}\n    \\hat{\\Omega} = " ++ omega ++ "\n\\qquad\\qquad\n    " ++ t ++ " = " ++
    g ++ "\n\\end{equation}\n\n" ++ comments ++ "\\begin{align}\\begin{split}\nLHS &=\n    " ++
    "i\\Big(\\dv{\\hat{\\bz}^{" ++ str s.zUpper ++ "}_{\\gamma}}{\\tau}\\Big)" ++ "\n\\\\ RHS &=\n%\n%\n" ++
    renderEquation s.omega s.eqn ++ "\n\\end{split}\\end{align}\n\n"

end TF.Zhz
