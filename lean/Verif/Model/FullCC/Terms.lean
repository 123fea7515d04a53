import Verif.Model.Truncations

/-!
# Model of the term generation of `termfactory/latex_full_cc.py` (lines 57-711)

Logging and the debug printers are not modelled.  Python's exceptions are values of `PyErr`.
-/

namespace TF.CC

open TF.Py

/-- `general_operator_namedtuple` (namedtuple_defines.py 15). -/
structure Op where
  name : String
  rank : Nat
  m : Nat
  n : Nat
  deriving DecidableEq, Repr

/-- `h_operator_namedtuple` (latex_full_cc.py 35). -/
structure HOp where
  rank : Nat
  m : Nat
  n : Nat
  deriving DecidableEq, Repr

/-- A labelled t amplitude: `connected_namedtuple` or `disconnected_namedtuple`
(namedtuple_defines.py 40-41).  Which of the two classes is used is decided once, where the tuple is
built (latex_full_cc.py 487-493), by `m_h == 0 and n_h == 0`; it is therefore the function
`T.isConnected` here, not a field.  Both classes compare, sort and hash as plain 4-tuples. -/
structure T where
  m_h : Nat
  n_h : Nat
  m_o : Nat
  n_o : Nat
  deriving DecidableEq, Repr

/-- The class test `isinstance(s, connected_namedtuple)`: the amplitude was built by the `else`
branch of latex_full_cc.py 487-493. -/
def T.isConnected (t : T) : Bool := !(t.m_h == 0 && t.n_h == 0)

/-- The tuple Python compares when it sorts amplitudes. -/
def T.key (t : T) : List Nat := [t.m_h, t.n_h, t.m_o, t.n_o]

/-- `connected_omega_operator_namedtuple` (latex_full_cc.py 52). -/
structure OmegaC where
  rank : Nat
  m : Nat
  n : Nat
  m_h : Nat
  n_h : Nat
  m_t : List Nat
  n_t : List Nat
  deriving DecidableEq, Repr

/-- `connected_h_operator_namedtuple` (latex_full_cc.py 53). -/
structure HC where
  rank : Nat
  m : Nat
  n : Nat
  m_o : Nat
  n_o : Nat
  m_t : List Nat
  n_t : List Nat
  deriving DecidableEq, Repr

/-- One generated term `[new_omega, new_h, s_list]`. -/
structure Term where
  omega : OmegaC
  h : HC
  ts : List T
  deriving DecidableEq, Repr

/-- `c * k` for a one-letter string `c` -/
def rep (c : Char) (k : Nat) : String := String.ofList (List.replicate k c)

/-- The double loop shared by the three operator generators: `for m in range(k+1): for n in
range(k+1-m)` (latex_full_cc.py 69-70, 90-91, 108-109). -/
def mnPairs (k : Nat) : List (Nat × Nat) :=
  (List.range (k + 1)).flatMap fun m => (List.range (k + 1 - m)).map fun n => (m, n)

/-- `generate_omega_operator` (latex_full_cc.py 57-79), its `operator_list`. -/
def omegaOps (cc omegaMax : Nat) : List Op :=
  sortBy (fun a b => decide (a.name.length ≤ b.name.length))
    (((mnPairs cc).filter fun p => decide (p.1 + p.2 ≤ omegaMax)).map fun p =>
      { name := rep 'd' p.1 ++ rep 'b' p.2, rank := p.1 + p.2, m := p.1, n := p.2 })

/-- `generate_full_cc_hamiltonian_operator` (latex_full_cc.py 82-93), its `operator_list`. -/
def hamiltonian (maxRank : Nat) : List HOp :=
  (mnPairs maxRank).map fun p => { rank := p.1 + p.2, m := p.1, n := p.2 }

/-- the name of an S operator (latex_full_cc.py 118-120) -/
def sName (m n : Nat) : String :=
  "s" ++ (if m > 0 then "^" ++ toString m else "") ++ (if n > 0 then "_" ++ toString n else "")

/-- `generate_s_operator` (latex_full_cc.py 96-124), its `operator_list`. -/
def sOps (cc : Nat) (gs : Bool) : List Op :=
  ((mnPairs cc).filter fun p =>
      !(gs && decide (p.2 > 0)) && !(p.1 == 0 && p.2 == 0)).map fun p =>
    { name := sName p.1 p.2, rank := p.1 + p.2, m := p.1, n := p.2 }

/-- The three shapes an entry of the Taylor expansion has in Python. -/
inductive Series
  | one (op : Op)
  | lin (ops : List Op)
  | prods (ps : List (List Op))
  deriving DecidableEq, Repr

/-- `generate_s_taylor_expansion` (latex_full_cc.py 153-189) with the three helpers
(latex_full_cc.py 127-150). -/
def sTaylor (cc smax : Nat) (gs : Bool) : List Series :=
  (List.range (smax + 1)).map fun k =>
    match k with
    | 0 => .one { name := "1", rank := 0, m := 0, n := 0 }
    | 1 => .lin (sOps cc gs)
    | k => .prods (productRepeat (sOps cc gs) k)

/-- `_t_joining_with_t_terms` (latex_full_cc.py 276-294). -/
def tJoinsT (omega : Op) (h : HOp) (perm : List Op) : Bool :=
  let available_b := omega.n + h.n
  let available_d := omega.m + h.m
  let required_b := (perm.map Op.m).sum
  let required_d := (perm.map Op.n).sum
  decide (required_b > available_b) || decide (required_d > available_d)

/-- `_omega_joining_with_itself` (latex_full_cc.py 297-317). -/
def omegaJoinsItself (omega : Op) (h : HOp) (perm : List Op) : Bool :=
  if omega.m == 0 || omega.n == 0 then false
  else if (decide (omega.n > 0) && decide (h.m > 0)) || (decide (omega.m > 0) && decide (h.n > 0)) then false
  else !(perm.any fun s =>
    (decide (omega.n > 0) && decide (s.m > 0)) || (decide (omega.m > 0) && decide (s.n > 0)))

/-- `_h_joining_with_itself` (latex_full_cc.py 320-340). -/
def hJoinsItself (omega : Op) (h : HOp) (perm : List Op) : Bool :=
  if h.m == 0 || h.n == 0 then false
  else if (decide (h.m > 0) && decide (omega.n > 0)) || (decide (h.n > 0) && decide (omega.m > 0)) then false
  else !(perm.any fun s =>
    (decide (h.m > 0) && decide (s.n > 0)) || (decide (h.n > 0) && decide (s.m > 0)))

/-- `_generate_valid_s_n_operator_permutations` (latex_full_cc.py 360-403). -/
def validPerms (omega : Op) (h : HOp) (series : List (List Op)) : List (List Op) :=
  series.filter fun perm =>
    let creation := omega.m + h.m + (perm.map Op.m).sum
    let annihilation := omega.n + h.n + (perm.map Op.n).sum
    decide (creation = annihilation) && !tJoinsT omega h perm && !omegaJoinsItself omega h perm &&
      !hJoinsItself omega h perm

/-- `[(i, M-i) for i in range(0, M+1)]` (latex_full_cc.py 422-426): how many go to omega, to h. -/
def splits (M : Nat) : List (Nat × Nat) := (List.range (M + 1)).map fun i => (i, M - i)

/-- `_generate_all_valid_t_connection_permutations` (latex_full_cc.py 406-463). -/
def connectionPerms (omega : Op) (h : HOp) (perm : List Op) :
    List (List (Nat × Nat)) × List (List (Nat × Nat)) :=
  ((product (perm.map fun s => splits s.m)).filter fun p =>
      decide ((p.map Prod.snd).sum ≤ h.n) && decide ((p.map Prod.fst).sum ≤ omega.n),
   (product (perm.map fun s => splits s.n)).filter fun p =>
      decide ((p.map Prod.snd).sum ≤ h.m) && decide ((p.map Prod.fst).sum ≤ omega.m))

/-- `_generate_all_omega_h_connection_permutations` (latex_full_cc.py 466-499).  The assertion that
the two assignments have equal length is the `error` branch. -/
def annotate (omega : Op) (h : HOp) (perms : List (List Op)) : Except PyErr (List (List T)) :=
  let ul := perms.flatMap fun perm =>
    let c := connectionPerms omega h perm
    c.1.flatMap fun upper => c.2.map fun lower => (upper, lower)
  if ul.all fun p => p.1.length == p.2.length then
    .ok (ul.map fun p => List.zipWith
      (fun u l => ({ m_o := u.1, m_h := u.2, n_o := l.1, n_h := l.2 } : T)) p.1 p.2)
  else .error .assertion

/-- `a.sort()` on amplitudes -/
def sortT (l : List T) : List T := sortBy (fun a b => lexLe a.key b.key) l

/-- `_remove_duplicate_s_permutations` (latex_full_cc.py 502-517): the set of sorted tuples, in some
iteration order. -/
def removeDuplicates (so : SetOrder (List T)) (l : List (List T)) : List (List T) :=
  so.iter (l.map sortT)

/-- The body of the loop of `_generate_explicit_connections` (latex_full_cc.py 530-559): `none` for
`continue`. -/
def explicitOne (omega : Op) (h : HOp) (s : List T) : Except PyErr (Option Term) :=
  let o_m_t := s.map T.n_o
  let o_n_t := s.map T.m_o
  let h_m_t := s.map T.n_h
  let h_n_t := s.map T.m_h
  let o_m_h : Int := (omega.m : Int) - o_m_t.sum
  let o_n_h : Int := (omega.n : Int) - o_n_t.sum
  let h_m_o : Int := (h.m : Int) - h_m_t.sum
  let h_n_o : Int := (h.n : Int) - h_n_t.sum
  if 0 ≤ o_m_h ∧ 0 ≤ o_n_h then
    if 0 ≤ h_m_o ∧ 0 ≤ h_n_o then
      if h_m_o ≠ o_n_h then .ok none
      else if h_n_o ≠ o_m_h then .ok none
      else .ok (some
        { omega := { rank := omega.m + omega.n, m := omega.m, n := omega.n, m_h := o_m_h.toNat,
                     n_h := o_n_h.toNat, m_t := o_m_t, n_t := o_n_t }
          h := { rank := h.m + h.n, m := h.m, n := h.n, m_o := h_m_o.toNat, n_o := h_n_o.toNat,
                 m_t := h_m_t, n_t := h_n_t }
          ts := s })
    else .error .assertion
  else .error .assertion

/-- `for x in l: ...` collecting results, stopping at the first exception -/
def collect {α β : Type} (f : α → Except PyErr (List β)) : List α → Except PyErr (List β)
  | [] => .ok []
  | a :: l =>
    match f a with
    | .error e => .error e
    | .ok x =>
      match collect f l with
      | .error e => .error e
      | .ok y => .ok (x ++ y)

/-- `_generate_explicit_connections` (latex_full_cc.py 520-561). -/
def explicitConnections (omega : Op) (h : HOp) (us : List (List T)) : Except PyErr (List Term) :=
  collect (fun s =>
    match explicitOne omega h s with
    | .error e => .error e
    | .ok none => .ok []
    | .ok (some t) => .ok [t]) us

/-- `_remove_f_zero_terms` (latex_full_cc.py 564-580). -/
def removeFZero (l : List Term) : List Term := l.filter fun t => !decide (t.omega.m_h ≥ 1)

/-- The wrapping at the start of `_filter_out_valid_s_terms` (latex_full_cc.py 590-608).  An empty
list raises `IndexError`.  (A list of lists whose first element has fewer than two entries would
leave `s_order` unbound; `sTaylor` produces none.) -/
def wrapSeries : Series → Except PyErr (List (List Op))
  | .one op => .ok [[op]]
  | .lin [] => .error .index
  | .lin ops => .ok (ops.map fun s => [s])
  | .prods [] => .error .index
  | .prods (p :: ps) => if p.length ≥ 2 then .ok (p :: ps) else .error .unbound

/-- The body of the loop over `h` (latex_full_cc.py 611-649).  The final `term[2] != set()` compares a
tuple with a set and is always true. -/
def filterForH (so : SetOrder (List T)) (removeF : Bool) (omega : Op) (series : List (List Op))
    (h : HOp) : Except PyErr (List Term) :=
  let valid := validPerms omega h series
  if valid = [] then .ok []
  else
    match annotate omega h valid with
    | .error e => .error e
    | .ok annotated =>
      match explicitConnections omega h (removeDuplicates so annotated) with
      | .error e => .error e
      | .ok labelled =>
        .ok (if removeF && (decide (omega.m ≥ 1) && decide (h.n ≥ 1)) then removeFZero labelled else labelled)

/-- `_filter_out_valid_s_terms` (latex_full_cc.py 583-651): the terms appended to `total_list`. -/
def filterTerms (so : SetOrder (List T)) (removeF : Bool) (omega : Op) (H : List HOp) (s : Series) :
    Except PyErr (List Term) :=
  match wrapSeries s with
  | .error e => .error e
  | .ok series => collect (filterForH so removeF omega series) H

/-- The loop over the Taylor expansion in `_generate_cc_latex_equations` (latex_full_cc.py 1368-1373)
and in `_generate_full_cc_einsums` (code_full_cc.py 614-618): `valid_term_list`. -/
def allTerms (so : SetOrder (List T)) (removeF : Bool) (omega : Op) (H : List HOp) (ss : List Series) :
    Except PyErr (List Term) :=
  collect (filterTerms so removeF omega H) ss

/-- The terms of a projection operator for given truncation values: `generate_full_cc_latex`
(latex_full_cc.py 1539-1541, 1559) up to classification. -/
def termsFor (so : SetOrder (List T)) (removeF gs : Bool) (hMax cc smax : Nat) (omega : Op) :
    Except PyErr (List Term) :=
  allTerms so removeF omega (hamiltonian hMax) (sTaylor cc smax gs)

/-- Which list a term is appended to. -/
inductive Cls | fully | linked | unlinked
  deriving DecidableEq, Repr

/-- The inner loop of `_seperate_s_terms_by_connection` (latex_full_cc.py 663-700) with its `else`
clause; `flag` is `linked_flag`. -/
def classifyLoop (o : OmegaC) (flag : Bool) : List T → Except PyErr Cls
  | [] => .ok (if flag then .linked else .fully)
  | s :: l =>
    if s.isConnected then classifyLoop o flag l
    else if s.m_o = o.n ∧ s.n_o = o.m then .ok .unlinked
    else if o.rank = 1 then .error .exception
    else classifyLoop o true l

/-- The group of one term (latex_full_cc.py 658-709). -/
def classify (t : Term) : Except PyErr Cls :=
  if t.ts = [⟨0, 0, 0, 0⟩] then .ok .fully else classifyLoop t.omega false t.ts

/-- `_seperate_s_terms_by_connection` (latex_full_cc.py 654-711). -/
def separate : List Term → Except PyErr (List Term × List Term × List Term)
  | [] => .ok ([], [], [])
  | t :: l =>
    match classify t with
    | .error e => .error e
    | .ok c =>
      match separate l with
      | .error e => .error e
      | .ok (f, k, u) =>
        match c with
        | .fully => .ok (t :: f, k, u)
        | .linked => .ok (f, t :: k, u)
        | .unlinked => .ok (f, k, t :: u)

end TF.CC
