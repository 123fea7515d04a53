import Verif.Model.FullCC.Terms

/-!
# Model of the LaTeX writer of `termfactory/latex_full_cc.py` (lines 714-1581)

Printed objects are kept as structured values (`Sub`, `PTerm`, ...) and rendered to text by the
`render` functions, so that properties can speak about the letters that are printed.  The `color`
argument of the label functions has its default value `True`, `print_prefactors` is `True`.
-/

namespace TF.CC

open TF.Py

/-- `summation_indices` (common_imports.py 26). -/
def summationIdx : List Char := ['i', 'j', 'k', 'l', 'm', 'n', 'o', 'p', 'q', 'r']

/-- `unlinked_indices` (common_imports.py 27). -/
def unlinkedIdx : List Char := ['z', 'y', 'x', 'w', 'v', 'u', 't', 's']

/-- The letters of a superscript or subscript: summation letters (printed `\blue{}`), then external
letters (printed `\red{}`). -/
structure Sub where
  s : List Char
  x : List Char
  deriving DecidableEq, Repr

/-- `\blue{..}\red{..}` -/
def Sub.render (l : Sub) : String := "\\blue{" ++ String.ofList l.s ++ "}\\red{" ++ String.ofList l.x ++ "}"

/-- `_build_h_term_latex_labels` (latex_full_cc.py 715-745): `none` is `\bh_0`, otherwise the upper
and the lower indices. -/
def hLabels (h : HC) (off : Nat) : Option (Sub × Sub) :=
  if h.rank = 0 then none
  else
    let hOff := h.m - h.m_o
    some (⟨slice summationIdx 0 (h.m - h.m_o), slice unlinkedIdx off (off + h.m_o)⟩,
      ⟨slice summationIdx hOff (hOff + (h.n - h.n_o)),
        slice unlinkedIdx (off + h.m_o) (off + h.m_o + h.n_o)⟩)

/-- Rendering of an `h` term (latex_full_cc.py 721-745). -/
def renderH : Option (Sub × Sub) → String
  | none => "\\bh_0"
  | some (u, d) => "\\bh" ++ "^{" ++ u.render ++ "}" ++ "_{" ++ d.render ++ "}"

/-- The offset dictionary of the t labels. -/
structure Offs where
  upper : Nat
  lower : Nat
  unlinked : Nat
  deriving DecidableEq, Repr

/-- The labels of one t amplitude; `none` for an empty super/subscript. -/
structure TLab where
  up : Option Sub
  down : Option Sub
  deriving DecidableEq, Repr

/-- The letters of a possibly empty label. -/
def subLetters : Option Sub → Sub
  | none => ⟨[], []⟩
  | some l => l

/-- `_build_t_term_latex_labels` (latex_full_cc.py 748-790) with the updated offsets. -/
def tLabels (t : T) (o : Offs) : TLab × Offs :=
  let down : Option Sub :=
    if t.n_h > 0 ∨ t.n_o > 0 then
      some ⟨slice summationIdx o.lower (o.lower + t.n_h), slice unlinkedIdx o.unlinked (o.unlinked + t.n_o)⟩
    else none
  let o := if t.n_h > 0 ∨ t.n_o > 0 then
      { o with lower := o.lower + t.n_h, unlinked := o.unlinked + t.n_o } else o
  let up : Option Sub :=
    if t.m_h > 0 ∨ t.m_o > 0 then
      some ⟨slice summationIdx o.upper (o.upper + t.m_h), slice unlinkedIdx o.unlinked (o.unlinked + t.m_o)⟩
    else none
  let o := if t.m_h > 0 ∨ t.m_o > 0 then
      { o with upper := o.upper + t.m_h, unlinked := o.unlinked + t.m_o } else o
  (⟨up, down⟩, o)

/-- `f"{bold_t_latex}^{{{up_label}}}_{{{down_label}}}"` (latex_full_cc.py 790, 831) -/
def TLab.render (l : TLab) : String :=
  "\\bt" ++ "^{" ++ (match l.up with | none => "" | some u => u.render) ++ "}_{" ++
    (match l.down with | none => "" | some d => d.render) ++ "}"

/-- The loop of `_build_t_term_latex_group` (latex_full_cc.py 825-831); a term whose labels are
`^{}_{}` is skipped. -/
def tGroupLoop : List T → Offs → List TLab
  | [], _ => []
  | t :: ts, o =>
    let r := tLabels t o
    if r.1.up = none ∧ r.1.down = none then tGroupLoop ts r.2 else r.1 :: tGroupLoop ts r.2

/-- `_build_t_term_latex_group` (latex_full_cc.py 801-833). -/
def tGroup (ts : List T) (h : Option HC) (o : Offs) : List TLab :=
  match h with
  | none => tGroupLoop ts o
  | some h => tGroupLoop ts { o with upper := o.upper + (h.m - h.m_o), unlinked := o.unlinked + (h.m_o + h.n_o) }

/-! ## Prefactors -/

/-- `list.count` -/
def countIn (l : List Nat) (x : Nat) : Nat := (l.filter fun y => y == x).length

/-- `_simplify_full_cc_python_prefactor` (latex_full_cc.py 956-1009, code_full_cc.py 185-238).  A
factor `"k!"` is represented by `k`.  The dictionaries are filled by iterating over a set (`so`). -/
def simplify (so : SetOrder Nat) (num den : List Nat) : List Nat × List Nat :=
  if num = [] ∨ den = [] then (num, den)
  else if ¬ (num.any fun x => den.contains x) then (num, den)
  else
    let newNum (k : Nat) : Nat :=
      let a := countIn num k
      let b := countIn den k
      if den.contains k then (if a > b then a - b else 0) else a
    let newDen (k : Nat) : Nat :=
      let a := countIn num k
      let b := countIn den k
      if num.contains k then (if a > b then 0 else if a < b then b - a else 0) else b
    ((so.iter num).flatMap fun k => List.replicate (newNum k) k,
     (so.iter den).flatMap fun k => List.replicate (newDen k) k)

/-- The factor lists of `_build_latex_prefactor` (latex_full_cc.py 1012-1068) before simplification;
`none` for the special case of a single `h`.  The dead `debug_flag` block only prints. -/
def rawPrefactor (h : HC) (ts : List T) : Option (List Nat × List Nat) :=
  if ts = [⟨0, 0, 0, 0⟩] then none
  else
    let x := (ts.filter fun t => decide (t.m_h > 0) || decide (t.n_h > 0)).dedup.length
    some (if x > 1 then [x] else [],
      (if h.m > 1 then [h.m] else []) ++ (if h.n > 1 then [h.n] else []) ++
        (if ts.length > 1 then [ts.length] else []))

/-- `_build_latex_prefactor` (latex_full_cc.py 1012-1079): factors of numerator and denominator. -/
def latexPrefactor (so : SetOrder Nat) (h : HC) (ts : List T) : List Nat × List Nat :=
  match rawPrefactor h ts with
  | none => ([], [])
  | some (n, d) => simplify so n d

/-- `"".join(f"{k}!" ...)` -/
def renderFactors (l : List Nat) : String :=
  if l = [] then "1" else String.join (l.map fun k => toString k ++ "!")

/-- latex_full_cc.py 1071-1079 -/
def renderPrefactor (p : List Nat × List Nat) : String :=
  if renderFactors p.1 = "1" ∧ renderFactors p.2 = "1" then ""
  else "\\frac{" ++ renderFactors p.1 ++ "}{" ++ renderFactors p.2 ++ "}"

/-! ## Terms -/

/-- A printed term: powers of `f` and `\bar{f}`, prefactor, labels of `h` and of the `t`s. -/
structure PTerm where
  f : Nat
  fbar : Nat
  pref : List Nat × List Nat
  h : Option (Sub × Sub)
  ts : List TLab
  deriving DecidableEq, Repr

/-- `_creates_f_prefactor` and the exponent (latex_full_cc.py 1129-1133, 1171-1175). -/
def fPower (t : Term) : Nat := if t.omega.m_h ≥ 1 ∧ t.h.n_o ≥ 1 then t.omega.m_h else 0

/-- `_creates_fbar_prefactor` and the exponent (latex_full_cc.py 1137-1141, 1180-1184). -/
def fbarPower (t : Term) : Nat := if t.omega.n_h ≥ 1 ∧ t.h.m_o ≥ 1 then t.omega.n_h else 0

/-- latex_full_cc.py 1171-1184 -/
def renderF (f fbar : Nat) : String :=
  (if f = 0 then "" else if f = 1 then "f" else "f^{" ++ toString f ++ "}") ++
  (if fbar = 0 then "" else if fbar = 1 then "\\bar{f}" else "\\bar{f}^{" ++ toString fbar ++ "}")

/-- The text of a term (latex_full_cc.py 1167-1212). -/
def PTerm.render (p : PTerm) : String :=
  renderF p.f p.fbar ++ renderPrefactor p.pref ++ renderH p.h ++ String.join (p.ts.map TLab.render)

/-- A term printed without condensing (latex_full_cc.py 1158-1190, 1204-1212). -/
def plainTerm (so : SetOrder Nat) (t : Term) : PTerm :=
  { f := fPower t, fbar := fbarPower t, pref := latexPrefactor so t.h t.ts
    h := hLabels t.h 0, ts := tGroup t.ts (some t.h) ⟨0, 0, 0⟩ }

/-- The lines of an uncondensed sum (latex_full_cc.py 1280-1290): one line if there are fewer than 14
terms, otherwise `len // 7` lines of seven. -/
def splitLines {α : Type} (l : List α) : List (List α) :=
  if l.length < 7 * 2 then [l]
  else (List.range (l.length / 7)).map fun i => slice l (i * 7) ((i + 1) * 7)

/-- `' + '.join` -/
def joinPlus (l : List String) : String := " + ".intercalate l

/-- The splitting text between lines (latex_full_cc.py 1264, 1288). -/
def splitText : String := "\n    \\\\  &+  % split long equation\n"

/-- latex_full_cc.py 1279-1295 -/
def renderPlain (l : List PTerm) : String :=
  if l.length < 7 * 2 then "(" ++ joinPlus (l.map PTerm.render) ++ ")"
  else "(\n" ++ splitText.intercalate ((splitLines l).map fun line => joinPlus (line.map PTerm.render)) ++ "\n)"

/-- Unlinked group: the common factor and the terms without it (latex_full_cc.py 898-914, 1217-1233).
`str.replace(common_latex, '')` is modelled as the removal of every amplitude whose printed labels
are those of the common factor.  `prepare_condensed_terms` looks at `term_list[0]`. -/
def unlinkedGroup (so : SetOrder Nat) (l : List Term) : Except PyErr (List PTerm × List TLab) :=
  match l with
  | [] => .error .index
  | t₀ :: _ =>
    let common : T := ⟨0, 0, t₀.omega.n, t₀.omega.m⟩
    if l.all fun t => t.ts.contains common then
      match tGroup [common] none ⟨0, 0, 0⟩ with
      | [] => .error .index
      | lab :: _ => .ok (l.map fun t =>
          let p := plainTerm so t
          { p with ts := p.ts.filter fun x => !(x == lab) }, [lab])
    else .error .assertion

/-- `_generate_linked_common_terms` (latex_full_cc.py 848-878): the distinct lists of disconnected
amplitudes, longest first. -/
def commonFactors (sol : SetOrder (List T)) (l : List Term) : List (List T) :=
  sortBy (fun a b => decide (b.length ≤ a.length)) (sol.iter (l.map fun t => t.ts.filter fun x => !x.isConnected))

/-- `t_list.index(t, offset)` -/
def indexFrom (l : List T) (t : T) (off : Nat) : Option Nat :=
  ((l.drop off).findIdx? fun y => y == t).map (· + off)

/-- The inner loop over a factor (latex_full_cc.py 1095-1104): the indices found, or `none` after a
`ValueError`. -/
def findFactor (ts : List T) : List T → Nat → Option (List Nat)
  | [], _ => some []
  | t :: f, off =>
    match indexFrom ts t off with
    | none => none
    | some i => (findFactor ts f (i + 1)).map (i :: ·)

/-- remove the positions in `idxs` (latex_full_cc.py 1110) -/
def removeIdxs (ts : List T) (idxs : List Nat) : List T :=
  ((ts.zip (List.range ts.length)).filter fun p => !idxs.contains p.2).map Prod.fst

/-- `_linked_condensed_adjust_t_terms` (latex_full_cc.py 1082-1126): the index of the first usable
factor, the remaining amplitudes and the offset of the external labels.  `last` is the value of
`new_t_list` when the loop ends without `break`. -/
def adjustLoop (h : HC) (ts : List T) : List (List T) → Nat → Option (List T) →
    Except PyErr (Nat × List T × Nat)
  | [], _, last =>
    match last with
    | none => .error .unbound
    | some l => .ok (0, l, 0)
  | f :: fs, i, last =>
    match findFactor ts f 0 with
    | none => adjustLoop h ts fs (i + 1) last
    | some idxs =>
      if idxs ≠ [] ∧ idxs.dedup.length = idxs.length then
        let fo := (f.map fun t => t.m_o + t.n_o).sum
        .ok (i, removeIdxs ts idxs, if h.m_o = 0 ∧ h.n_o = 0 then fo else h.m_o + h.n_o + fo)
      else adjustLoop h ts fs (i + 1) (some ts)

/-- One term of the linked group (latex_full_cc.py 1191-1202): the index of its factor and its
printed form. -/
def linkedTerm (so : SetOrder Nat) (factors : List (List T)) (t : Term) : Except PyErr (Nat × PTerm) :=
  match adjustLoop t.h t.ts factors 0 none with
  | .error e => .error e
  | .ok (i, rest, off) =>
    match factors[i]? with
    | none => .error .index
    | some f =>
      .ok (i, { f := fPower t, fbar := fbarPower t, pref := latexPrefactor so t.h t.ts
                h := hLabels t.h ((f.map fun t => t.m_o + t.n_o).sum)
                ts := tGroup rest (some t.h) ⟨0, 0, off⟩ })

/-- `list.append` of a result (for use with `collect`) -/
def one {β : Type} : Except PyErr β → Except PyErr (List β)
  | .error e => .error e
  | .ok r => .ok [r]

/-- The linked group (latex_full_cc.py 917-953, 1153-1156, 1191-1202, 1236-1267): for every common
factor the terms printed in front of it, and its labels. -/
def linkedGroup (so : SetOrder Nat) (sol : SetOrder (List T)) (l : List Term) :
    Except PyErr (List (List PTerm × List TLab)) :=
  match l with
  | [] => .error .index
  | t₀ :: _ =>
    if t₀.omega.rank = 2 ∨ t₀.omega.rank = 3 then
      let factors := commonFactors sol l
      match collect (fun t => one (linkedTerm so factors t)) l with
      | .error e => .error e
      | .ok rs =>
        .ok ((factors.zip (List.range factors.length)).map fun fi =>
          ((rs.filter fun r => r.1 == fi.2).map Prod.snd, tGroup fi.1 none ⟨0, 0, 0⟩))
    else .error .notImplemented

/-- `({terms}){common}` (latex_full_cc.py 1233, 1261) -/
def renderCondensed (g : List PTerm × List TLab) : String :=
  "(" ++ joinPlus (g.1.map PTerm.render) ++ ")" ++ String.join (g.2.map TLab.render)

/-- What is printed for one projection operator. -/
inductive Equation
  | zero (fully linked unlinked : List PTerm)
  | general (fully : List PTerm) (linkedPlain : List PTerm) (linked : List (List PTerm × List TLab))
      (unlinked : Option (List PTerm × List TLab))
  deriving Repr

/-- `_write_cc_latex_from_lists` (latex_full_cc.py 1298-1339).  For rank 1 the linked list is printed
uncondensed (`linkedPlain`). -/
def equation (so : SetOrder Nat) (sol : SetOrder (List T)) (rank : Nat) (fully linked unlinked : List Term) :
    Except PyErr Equation :=
  if rank = 0 then
    .ok (.zero (fully.map (plainTerm so)) (linked.map (plainTerm so)) (unlinked.map (plainTerm so)))
  else
    let lk : Except PyErr (List (List PTerm × List TLab)) :=
      if rank > 1 ∧ linked ≠ [] then linkedGroup so sol linked else .ok []
    match lk with
    | .error e => .error e
    | .ok lk =>
      let ul : Except PyErr (Option (List PTerm × List TLab)) :=
        if unlinked ≠ [] then (unlinkedGroup so unlinked).map some else .ok none
      match ul with
      | .error e => .error e
      | .ok ul => .ok (.general (fully.map (plainTerm so)) (if rank > 1 then [] else linked.map (plainTerm so)) lk ul)

/-- The text of an equation (latex_full_cc.py 1305-1339), including the final removal of empty
super/subscripts. -/
def renderEquation : Equation → String
  | .zero f l u =>
    ((joinPlus [renderPlain f, renderPlain l, renderPlain u]).replace "^{}" "").replace "_{}" ""
  | .general f lp l u =>
    let sep := "\n%\n%\n\\\\  &+\n%\n%\n"
    let ft := if f = [] then "    \\textit{no fully connected terms}" else renderPlain f
    let lt := if l = [] ∧ lp = [] then "    \\textit{no linked disconnected terms}"
      else if l = [] then renderPlain lp
      else splitText.intercalate (l.map renderCondensed)
    let ut := match u with
      | none => "    \\textit{no unlinked disconnected terms}"
      | some g => renderCondensed g
    ((ft ++ sep ++ lt ++ sep ++ ut).replace "^{}" "").replace "_{}" ""

/-- `_generate_cc_latex_equations` (latex_full_cc.py 1343-1384). -/
def equationFor (so : SetOrder Nat) (sol : SetOrder (List T)) (removeF gs : Bool) (hMax cc smax : Nat)
    (omega : Op) : Except PyErr Equation :=
  match termsFor sol removeF gs hMax cc smax omega with
  | .error e => .error e
  | .ok L =>
    match separate L with
    | .error e => .error e
    | .ok (f, k, u) => equation so sol omega.rank f k u

/-! ## Left-hand side -/

/-- descending sort of pairs -/
def sortPairsDesc (l : List (Nat × Nat)) : List (Nat × Nat) :=
  sortBy (fun a b => lexLe [b.1, b.2] [a.1, a.2]) l

/-- The products on the left-hand side (latex_full_cc.py 1400-1443): `sorted_list`. -/
def lhsGroups (sop : SetOrder (List (Nat × Nat))) (omega : Op) : List (List (Nat × Nat)) :=
  let order := omega.m + omega.n
  let single := (List.range (order + 1)).flatMap fun m => ((List.range (order + 1)).filter fun n =>
    decide ((n = m ∧ m ≠ 0) ∨ n ≠ m)).map fun n => (m, n)
  let all := (range2 1 (order + 1)).flatMap fun len => productRepeat single len
  let matched := all.filter fun ts =>
    decide (omega.m = (ts.map Prod.snd).sum) && decide (omega.n = (ts.map Prod.fst).sum)
  sortBy (fun a b => decide (a.length ≤ b.length)) (sop.iter (matched.map sortPairsDesc))

/-- Labels of one product (latex_full_cc.py 1452-1466). -/
def lhsLabels : List (Nat × Nat) → Nat → List (List Char × List Char)
  | [], _ => []
  | t :: ts, count =>
    (slice summationIdx count (count + t.1), slice summationIdx (count + t.1) (count + t.1 + t.2)) ::
      lhsLabels ts (count + t.1 + t.2)

/-- A summand of the left-hand side: the labels of its amplitudes and which of them is
differentiated (`none`: multiplied by epsilon). -/
structure LhsTerm where
  ts : List (List Char × List Char)
  deriv : Option Nat
  deriving DecidableEq, Repr

/-- `_generate_left_hand_side` (latex_full_cc.py 1389-1491): derivative terms, then epsilon terms.
For rank 0 the text is the single `\varepsilon`, i.e. the epsilon term of the empty product. -/
def lhsTerms (sop : SetOrder (List (Nat × Nat))) (omega : Op) : List LhsTerm :=
  if omega.m + omega.n = 0 then [⟨[], none⟩]
  else
    let groups := (lhsGroups sop omega).map fun g => lhsLabels g 0
    (groups.flatMap fun g => (List.range g.length).map fun i => ⟨g, some i⟩) ++
      groups.map fun g => ⟨g, none⟩

/-- one amplitude on the left-hand side (latex_full_cc.py 1464) -/
def renderLhsT (t : List Char × List Char) : String :=
  "\\bt^{" ++ String.ofList t.1 ++ "}_{" ++ String.ofList t.2 ++ "}"

/-- latex_full_cc.py 1469-1487 -/
def LhsTerm.render (t : LhsTerm) : String :=
  match t.deriv with
  | none => String.join (t.ts.map renderLhsT) ++ "\\varepsilon"
  | some i => String.join ((t.ts.take i).map renderLhsT) ++ "\\dv{" ++
      (match t.ts[i]? with | some x => renderLhsT x | none => "") ++ "}{\\tau}" ++
      String.join ((t.ts.drop (i + 1)).map renderLhsT)

/-- latex_full_cc.py 1490-1491 -/
def renderLhs (l : List LhsTerm) : String := "i\\left(" ++ joinPlus (l.map LhsTerm.render) ++ "\\right)"

/-- One round of the loop (latex_full_cc.py 1551-1570). -/
def documentEntry (so : SetOrder Nat) (sol : SetOrder (List T)) (sop : SetOrder (List (Nat × Nat)))
    (removeF gs : Bool) (hMax cc smax : Nat) (omega : Op) : Except PyErr (Op × List LhsTerm × Equation) :=
  match equationFor so sol removeF gs hMax cc smax omega with
  | .error e => .error e
  | .ok eq => .ok (omega, lhsTerms sop omega, eq)

/-- The loop over the projection operators in `generate_full_cc_latex` (latex_full_cc.py 1539-1570):
the left-hand side and the equation of each, in order. -/
def latexDocument (so : SetOrder Nat) (sol : SetOrder (List T)) (sop : SetOrder (List (Nat × Nat)))
    (removeF gs : Bool) (hMax cc smax omegaMax : Nat) :
    Except PyErr (List (Op × List LhsTerm × Equation)) :=
  collect (fun omega => one (documentEntry so sol sop removeF gs hMax cc smax omega)) (omegaOps cc omegaMax)

end TF.CC
