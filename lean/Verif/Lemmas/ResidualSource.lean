import Verif.Lemmas.SourceRun
import Verif.Lemmas.Residual
import Verif.Model.ResidualText
import Mathlib.Tactic.IntervalCases

/-!
# The text of the generated residual module, read as Python
-/

namespace TF.Residual

set_option maxRecDepth 10000

open TF.Py TF.Spec.Source
open TF.Spec.PyRun (zerosAt)
open TF.CC (tabs)
open TF.W (orderTags modeTags)

/-! ## Lines -/

def natWord (n : Nat) : Expr := .word (toString n).toList

def prefAst : PTerm → Expr
  | .one => nameExpr "1.0"
  | .half => nameExpr "0.5"
  | .frac a b => .prod [(false, natWord a), (true, natWord b)]
  | .twice a b => .prod [(false, natWord a), (true, .prod [(false, nameExpr "2"), (false, natWord b)])]

def prefToks : PTerm → List Tok
  | .one => [.word "1.0".toList]
  | .half => [.word "0.5".toList]
  | .frac a b => [.sym '(', .word (toString a).toList, .sym '/', .word (toString b).toList, .sym ')']
  | .twice a b => [.sym '(', .word (toString a).toList, .sym '/', .sym '(', .word "2".toList, .sym '*', .word (toString b).toList, .sym ')', .sym ')']

/-- the text of the letters -/
def lettersText (a b c : List Char) : List Char := a ++ ',' :: (b ++ '-' :: '>' :: c)

def productAst (l : Line) : Expr :=
  match l.product with
  | none => nameExpr (hString l.h)
  | some (w, a, b, c) => .call (.attr (nameExpr "np") "einsum".toList) [.str (lettersText a b c), nameExpr (hString l.h), nameExpr (wString w)]

def productToks (l : Line) : List Tok :=
  match l.product with
  | none => [.word (hString l.h).toList]
  | some (w, a, b, c) =>
    [.word "np".toList, .sym '.', .word "einsum".toList, .sym '(', .str (lettersText a b c), .sym ',', .word (hString l.h).toList, .sym ',', .word (wString w).toList, .sym ')']

def lineExpr (l : Line) : Expr := .prod [(false, prefAst l.pref), (false, productAst l)]

def lineAst (l : Line) : Spec.Source.Stmt := .add "R".toList (lineExpr l)

/-- the letters can be read -/
def GoodLetters (l : Line) : Prop := ∀ w a b c, l.product = some (w, a, b, c) → ∀ x ∈ a ++ b ++ c, isWord x = true

theorem hString_word (k : Nat × Nat) : Word (hString k).toList := by
  unfold hString
  split_ifs <;> exact word_lit (by decide)

theorem wString_toList (n : Nat) : (wString n).toList = 'w' :: '_' :: modeTags.take n := by
  simp [wString, String.toList_append]

theorem wString_word (n : Nat) : Word (wString n).toList := by
  rw [wString_toList]
  refine word_append (a := ['w', '_']) ⟨by simp, by decide⟩ fun c hc => ?_
  have : ∀ c ∈ modeTags, isWord c = true := by decide
  exact this c (List.mem_of_mem_take hc)

theorem wString_ne (n : Nat) : (wString n).toList ≠ "not".toList := by
  rw [wString_toList]
  simp

theorem pref_atom (p : PTerm) : Atom (prefToks p) (prefAst p) := by
  cases p with
  | one => exact Atom.word _
  | half => exact Atom.word _
  | frac a b => exact ((Atom.word (toString a).toList).term.mul (Atom.word (toString b).toList) true).item.args.group
  | twice a b =>
    have h : Atom [.sym '(', .word "2".toList, .sym '*', .word (toString b).toList, .sym ')'] (.prod [(false, nameExpr "2"), (false, natWord b)]) :=
      ((Atom.word "2".toList).term.mul (Atom.word (toString b).toList) false).item.args.group
    exact ((Atom.word (toString a).toList).term.mul h true).item.args.group

theorem product_atom (l : Line) : Atom (productToks l) (productAst l) := by
  unfold productToks productAst
  split
  · exact Atom.word _
  · rename_i w a b c _
    have h1 : Args [.str (lettersText a b c), .sym ',', .word (hString l.h).toList, .sym ',', .word (wString w).toList]
        [.str (lettersText a b c), nameExpr (hString l.h), nameExpr (wString w)] :=
      ((Atom.str (lettersText a b c)).item.args.snoc (Atom.word (hString l.h).toList).item).snoc (Atom.word (wString w).toList).item
    exact ((Atom.word "np".toList).attr "einsum".toList).call h1

theorem line_item (l : Line) : Item (prefToks l.pref ++ .sym '*' :: productToks l) (lineExpr l) :=
  ((pref_atom l.pref).term.mul (product_atom l) false).item

theorem lex_pref (p : PTerm) : Lex ⟨0, .plain⟩ (p.render ++ " * ").toList (prefToks p ++ [.sym '*']) ⟨0, .plain⟩ := by
  cases p with
  | one => rfl
  | half => rfl
  | frac a b =>
    have h1 : Lex ⟨0, .plain⟩ "(".toList [.sym '('] ⟨1, .plain⟩ := rfl
    have h2 : ∀ w, Lex ⟨1, .word w⟩ "/".toList [.word w, .sym '/'] ⟨1, .plain⟩ := fun w => rfl
    have h3 : ∀ w, Lex ⟨1, .word w⟩ ") * ".toList [.word w, .sym ')', .sym '*'] ⟨0, .plain⟩ := fun _ => rfl
    exact (h1.append (lex_word_then (nat_word a) ((h2 _).append (lex_word_then (nat_word b) (h3 _))))).cast (by simp [PTerm.render, String.toList_append]) (by simp [prefToks])
  | twice a b =>
    have h1 : Lex ⟨0, .plain⟩ "(".toList [.sym '('] ⟨1, .plain⟩ := rfl
    have h2 : ∀ w, Lex ⟨1, .word w⟩ "/(2*".toList [.word w, .sym '/', .sym '(', .word "2".toList, .sym '*'] ⟨2, .plain⟩ := fun w => rfl
    have h3 : ∀ w, Lex ⟨2, .word w⟩ ")) * ".toList [.word w, .sym ')', .sym ')', .sym '*'] ⟨0, .plain⟩ := fun _ => rfl
    exact (h1.append (lex_word_then (nat_word a) ((h2 _).append (lex_word_then (nat_word b) (h3 _))))).cast (by simp [PTerm.render, String.toList_append]) (by simp [prefToks])

/-- the text after the prefactor -/
def productText (l : Line) : String :=
  match l.product with
  | none => hString l.h
  | some (w, a, b, c) => "np.einsum('" ++ String.ofList a ++ "," ++ String.ofList b ++ "->" ++ String.ofList c ++ "', " ++ hString l.h ++ ", " ++ wString w ++ ")"

theorem render_eq (l : Line) : l.render = "R += " ++ (l.pref.render ++ " * ") ++ productText l := by
  unfold Line.render productText
  cases l.product <;> simp only [String.append_assoc]

theorem lettersText_clean {l : Line} (h : GoodLetters l) {w : Nat} {a b c : List Char} (hp : l.product = some (w, a, b, c)) {x : Char} (hx : isWord x = false)
    (h' : x ∉ [',', '-', '>']) : x ∉ lettersText a b c := by
  have h3 : x ≠ ',' ∧ x ≠ '-' ∧ x ≠ '>' := by simpa using h'
  have hw := h w a b c hp
  unfold lettersText
  intro hm
  simp only [List.mem_append, List.mem_cons] at hm
  rcases hm with hm | hm | hm | hm | hm | hm
  · exact isWord_ne (hw x (by simp [hm])) hx rfl
  · exact h3.1 hm
  · exact isWord_ne (hw x (by simp [hm])) hx rfl
  · exact h3.2.1 hm
  · exact h3.2.2 hm
  · exact isWord_ne (hw x (by simp [hm])) hx rfl

theorem lex_product {l : Line} (h : GoodLetters l) : Lex ⟨0, .plain⟩ ((productText l).toList ++ ['\n']) (productToks l) ⟨0, .start 0⟩ := by
  unfold productText productToks
  split
  · have h1 : ∀ w, Lex ⟨0, .word w⟩ ['\n'] [.word w] ⟨0, .start 0⟩ := fun _ => rfl
    exact lex_word_then (hString_word l.h) (h1 _)
  · rename_i w a b c hp
    have h1 : Lex ⟨0, .plain⟩ "np.einsum('".toList [.word "np".toList, .sym '.', .word "einsum".toList, .sym '('] ⟨1, .quote '\'' []⟩ := rfl
    have h2 := lex_quote (lettersText a b c) [] '\'' 1 (lettersText_clean h hp rfl (by decide)) (lettersText_clean h hp rfl (by decide))
    have h3 : Lex ⟨1, .quote '\'' ([] ++ lettersText a b c)⟩ "', ".toList [.str (lettersText a b c), .sym ','] ⟨1, .plain⟩ := rfl
    have h4 : ∀ w, Lex ⟨1, .word w⟩ ", ".toList [.word w, .sym ','] ⟨1, .plain⟩ := fun _ => rfl
    have h5 : ∀ w, Lex ⟨1, .word w⟩ ")\n".toList [.word w, .sym ')'] ⟨0, .start 0⟩ := fun _ => rfl
    exact (h1.append (h2.append (h3.append (lex_word_then (hString_word l.h) ((h4 _).append (lex_word_then (wString_word w) (h5 _))))))).cast
      (by simp [lettersText, String.toList_append]) (by simp)

theorem flat_line (l : Line) : Flat (prefToks l.pref ++ .sym '*' :: productToks l) := by
  refine Flat.append ?_ (Flat.cons (by simp) ?_)
  · cases l.pref <;> exact flat_of rfl
  · unfold productToks
    split <;> exact flat_of rfl

theorem code_line {l : Line} (h : GoodLetters l) (k : Nat) : Code (4 * k) [tabs k ++ l.render] [lineAst l] := by
  refine Code.lines (t := .word "R".toList :: .sym '+' :: .sym '=' :: (prefToks l.pref ++ .sym '*' :: productToks l)) ?_
    (Flat.cons (by simp) (Flat.cons (by simp) (Flat.cons (by simp) (flat_line l)))) (head_add (by decide) (expr_item (line_item l) (by simp [lineExpr]))) rfl
  have h1 : Lex ⟨0, .start (4 * k)⟩ "R += ".toList [.line (4 * k), .word "R".toList, .sym '+', .sym '='] ⟨0, .plain⟩ := rfl
  exact ((lex_tabs k 0).append (h1.append ((lex_pref l.pref).append (lex_product h)))).cast
    (by rw [render_eq]; simp [String.toList_append]) (by simp)

/-! ## Statements -/

def quadAst : List (Option Nat × Line) → List Spec.Source.Stmt
  | [] => []
  | [(some k, l)] => [.cond (.notNone (nameExpr (wString k))) [lineAst l] []]
  | (some k, l) :: (none, l') :: r => .cond (.notNone (nameExpr (wString k))) [lineAst l] [lineAst l'] :: quadAst r
  | (some k, l) :: (some k', l') :: r => .cond (.notNone (nameExpr (wString k))) [lineAst l] [] :: quadAst ((some k', l') :: r)
  | (none, _) :: r => quadAst r

/-- every `else` follows an `if` -/
def Paired : List (Option Nat × Line) → Prop
  | [] => True
  | [(some _, _)] => True
  | (some _, _) :: (none, _) :: r => Paired r
  | (some _, _) :: (some k', l') :: r => Paired ((some k', l') :: r)
  | (none, _) :: _ => False

def stmtAst : Stmt → Spec.Source.Stmt
  | .plain l => lineAst l
  | .quad ls => .cond (.attr (nameExpr "truncation") "quadratic".toList) (quadAst ls) []
  | .ifW k ls => .cond (.notNone (nameExpr (wString k))) (ls.map lineAst) []

/-- the statement can be read -/
def GoodStmt : Stmt → Prop
  | .plain l => GoodLetters l
  | .quad ls => ls ≠ [] ∧ Paired ls ∧ ∀ x ∈ ls, GoodLetters x.2
  | .ifW _ ls => ls ≠ [] ∧ ∀ l ∈ ls, GoodLetters l

theorem lex_notNone (k n : Nat) : LexLines [tabs k ++ "if " ++ wString n ++ " is not None:"]
    (.line (4 * k) :: [.word "if".toList, .word (wString n).toList, .word "is".toList, .word "not".toList, .word "None".toList, .sym ':']) := by
  have h1 : Lex ⟨0, .start (4 * k)⟩ "if ".toList [.line (4 * k), .word "if".toList] ⟨0, .plain⟩ := rfl
  have h2 : ∀ w, Lex ⟨0, .word w⟩ " is not None:\n".toList [.word w, .word "is".toList, .word "not".toList, .word "None".toList, .sym ':'] ⟨0, .start 0⟩ := fun _ => rfl
  exact ((lex_tabs k 0).append (h1.append (lex_word_then (wString_word n) (h2 _)))).cast (by simp [String.toList_append]) (by simp)

theorem quadAst_ne : ∀ {ls : List (Option Nat × Line)}, ls ≠ [] → Paired ls → quadAst ls ≠ []
  | [(some _, _)], _, _ => by simp [quadAst]
  | (some _, _) :: (none, _) :: r, _, _ => by simp [quadAst]
  | (some _, _) :: (some k', l') :: r, _, _ => by simp [quadAst]
  | (none, _) :: _, _, h => absurd h (by simp [Paired])

theorem code_quad : ∀ {ls : List (Option Nat × Line)}, Paired ls → (∀ x ∈ ls, GoodLetters x.2) →
    Code 8 (ls.flatMap fun g => [guard g.1, tabs 3 ++ g.2.render]) (quadAst ls)
  | [], _, _ => Code.nil 8
  | [(some k, l)], _, h => Code.cond (k := 8) (k' := 12) (by omega) (lex_notNone 2 k) (flat_of rfl) (head_notNone (wString_ne k)) (code_line (h _ (by simp)) 3) (by simp)
  | (some k, l) :: (none, l') :: r, hp, h => by
    have h1 : Code 8 ([guard (some k), tabs 3 ++ l.render] ++ [guard none, tabs 3 ++ l'.render]) [.cond (.notNone (nameExpr (wString k))) [lineAst l] [lineAst l']] :=
      Code.condElse (k := 8) (k' := 12) (by omega) (lex_notNone 2 k) (flat_of rfl) (head_notNone (wString_ne k)) (u := [.word "else".toList, .sym ':']) rfl (flat_of rfl) rfl
        (code_line (h (some k, l) (by simp)) 3) (code_line (h (none, l') (by simp)) 3) (by simp) (by simp)
    exact h1.append (code_quad (ls := r) hp fun x hx => h x (by simp [hx]))
  | (some k, l) :: (some k', l') :: r, hp, h => by
    have h1 : Code 8 [guard (some k), tabs 3 ++ l.render] [.cond (.notNone (nameExpr (wString k))) [lineAst l] []] :=
      Code.cond (k := 8) (k' := 12) (by omega) (lex_notNone 2 k) (flat_of rfl) (head_notNone (wString_ne k)) (code_line (h (some k, l) (by simp)) 3) (by simp)
    exact h1.append (code_quad (ls := (some k', l') :: r) hp fun x hx => h x (by simp [List.mem_cons.1 hx]))
  | (none, _) :: _, hp, _ => absurd hp (by simp [Paired])

theorem code_stmt {s : Stmt} (h : GoodStmt s) : Code 4 s.lines [stmtAst s] := by
  cases s with
  | plain l => exact code_line h 1
  | quad ls =>
    have hl : LexLines [tabs 1 ++ "if truncation.quadratic:"]
        (.line 4 :: .word "if".toList :: ([.word "truncation".toList, .sym '.', .word "quadratic".toList] ++ [.sym ':'])) := rfl
    exact Code.cond (k := 4) (k' := 8) (by omega) hl (flat_of rfl)
      (head_cond (expr_item ((Atom.word "truncation".toList).attr "quadratic".toList).item (by simp))) (code_quad h.2.1 h.2.2) (quadAst_ne h.1 h.2.1)
  | ifW k ls =>
    exact Code.cond (k := 4) (k' := 8) (by omega) (lex_notNone 1 k) (flat_of rfl) (head_notNone (wString_ne k)) (Code.map fun l hl => code_line (h.2 l hl) 2) (by simp [h.1])

/-! ## Functions -/

def hNames : List String := ["h_ab", "h_abI", "h_abi", "h_abIj", "h_abIJ", "h_abij"]

def fnName (k : Nat) : String := "calculate_order_" ++ toString k ++ "_residual"

def wNames (n : Nat) : List String := (range2 1 (n + 1)).map wString

def gateName (f : Fn) : String := (orderTags[f.gate]?).getD ""

def headAst (f : Fn) : List Spec.Source.Stmt :=
  [.doc, .assign (hNames.map String.toList) (nameExpr "h_args"), .unpack ((wNames f.unpacked).map String.toList) "unusedargs".toList (nameExpr "w_args"),
    .assign ["R".toList] (zerosAt ("A" :: "A" :: List.replicate f.order "N")),
    .assert (.attr (nameExpr "truncation") (gateName f).toList)
      (.fmt ("Cannot calculate order " ++ toString f.order ++ " residual for {truncation.cc_truncation_order}").toList)]

def fnBody (f : Fn) : List Spec.Source.Stmt := headAst f ++ (f.body.map stmtAst ++ [.ret (some (nameExpr "R"))])

def fnParams : List String := ["A", "N", "truncation", "h_args", "w_args"]

def fnAst (f : Fn) : Spec.Source.Stmt := .defn (fnName f.order).toList (fnParams.map String.toList) (fnBody f)

/-- the lines before the terms -/
def headLines (f : Fn) : List String :=
  [tabs 1 ++ "\"\"\"Calculate the " ++ toString f.order ++ " order residual as a function of the W operators.\"\"\"",
    tabs 1 ++ "h_ab, h_abI, h_abi, h_abIj, h_abIJ, h_abij = h_args",
    tabs 1 ++ ", ".intercalate ((range2 1 (f.unpacked + 1)).map wString ++ ["*unusedargs"]) ++ " = w_args",
    "",
    tabs 1 ++ "R = np.zeros((" ++ ", ".intercalate ("A" :: "A" :: List.replicate f.order "N") ++ "), dtype=complex)",
    "",
    tabs 1 ++ "assert truncation." ++ gateName f ++ ", \\",
    tabs 2 ++ "f\"Cannot calculate order " ++ toString f.order ++ " residual for {truncation.cc_truncation_order}\""]

theorem gateName_word (f : Fn) : ∀ c ∈ (gateName f).toList, isWord c = true := by
  unfold gateName
  cases h : orderTags[f.gate]? with
  | none => simp
  | some x =>
    have : ∀ x ∈ orderTags, ∀ c ∈ x.toList, isWord c = true := by decide
    exact this x (List.mem_of_getElem? h)

theorem wNames_cons (n : Nat) : wNames (n + 1) = "w_i" :: (range2 2 (n + 2)).map wString := by
  have : range2 1 (n + 1 + 1) = 1 :: range2 2 (n + 2) := by
    unfold range2
    rw [show n + 1 + 1 - 1 = n + 1 by omega, show n + 2 - 2 = n by omega, List.range_succ_eq_map]
    simp [Function.comp_def]
  unfold wNames
  rw [this]
  rfl

theorem code_unpack {n : Nat} (hn : 1 ≤ n) : Code 4 [tabs 1 ++ ", ".intercalate ((range2 1 (n + 1)).map wString ++ ["*unusedargs"]) ++ " = w_args"]
    [.unpack ((wNames n).map String.toList) "unusedargs".toList (nameExpr "w_args")] := by
  obtain ⟨n, rfl⟩ := Nat.exists_eq_add_of_le' hn
  refine Code.lines (t := commaToks ((wNames (n + 1)).map String.toList) ++ .sym '*' :: .word "unusedargs".toList :: .sym '=' :: [.word "w_args".toList]) ?_
    (Flat.append (flat_commaToks _) (flat_of rfl)) ?_ rfl
  · have h1 : Lex ⟨0, .start 4⟩ ("w_i".toList ++ ", ".toList) [.line 4, .word "w_i".toList, .sym ','] ⟨0, .plain⟩ := rfl
    have h2 := lex_comma_names 0 (ws := (range2 2 (n + 2)).map wString) (by
      intro w hw
      obtain ⟨k, _, rfl⟩ := List.mem_map.1 hw
      exact wString_word k)
    have h3 : Lex ⟨0, .plain⟩ "*unusedargs = w_args\n".toList [.sym '*', .word "unusedargs".toList, .sym '=', .word "w_args".toList] ⟨0, .start 0⟩ := rfl
    have := (lex_tabs 1 0).append (h1.append (h2.append h3))
    refine this.cast ?_ ?_
    · have e := wNames_cons n
      unfold wNames at e
      rw [e]
      have hs : "*unusedargs".toList ++ (" = w_args".toList ++ ['\n']) = "*unusedargs = w_args\n".toList := rfl
      simp only [List.flatMap_cons, List.flatMap_nil, String.toList_append, toList_commas, List.append_assoc, List.append_nil, hs]
    · rw [wNames_cons]
      simp [commaToks]
  · rw [wNames_cons]
    exact head_unpack (by decide) rfl

/-- the tokens of the creation of the array -/
def zerosAtToks (r : Nat) : List Tok := .word "np".toList :: .sym '.' :: .word "zeros".toList :: .sym '(' :: .sym '(' :: .word "A".toList :: .sym ',' ::
    (shapeToks "A" r ++ [.sym ')', .sym ',', .word "dtype".toList, .sym '=', .word "complex".toList, .sym ')'])

def shapeAst (r : Nat) : List String := "A" :: "A" :: List.replicate r "N"

theorem zerosAt_item (r : Nat) : Item (zerosAtToks r) (zerosAt (shapeAst r)) := by
  have h1 : Args (.word "A".toList :: .sym ',' :: shapeToks "A" r) (nameExpr "A" :: nameExpr "A" :: List.replicate r (nameExpr "N")) := by
    have := (((Atom.word "A".toList).item.args).snoc (Atom.word "A".toList).item).snocs (List.replicate r ()) (fun _ => [.word "N".toList]) (fun _ => nameExpr "N")
      fun _ _ => (Atom.word "N".toList).item
    simpa [shapeToks, nameExpr, List.map_replicate] using this
  have h2 := h1.group.item.args.snoc ((Atom.word "complex".toList).term.sum.kw "dtype".toList)
  have h3 := ((Atom.word "np".toList).attr "zeros".toList).call h2
  have := h3.item
  simpa [zerosAtToks, zerosAt, shapeAst, nameExpr, Spec.Source.one, List.map_replicate] using this

theorem code_zeros (r : Nat) : Code 4 [tabs 1 ++ "R = np.zeros((" ++ ", ".intercalate (shapeAst r) ++ "), dtype=complex)"] [.assign ["R".toList] (zerosAt (shapeAst r))] := by
  refine Code.lines (t := .word "R".toList :: .sym '=' :: zerosAtToks r) ?_ ?_
    (head_assign (w := "R".toList) (by decide) (expr_item (zerosAt_item r) ?_)) rfl
  · have h1 : Lex ⟨0, .start 4⟩ "R = np.zeros((A, ".toList
        [.line 4, .word "R".toList, .sym '=', .word "np".toList, .sym '.', .word "zeros".toList, .sym '(', .sym '(', .word "A".toList, .sym ','] ⟨2, .plain⟩ := rfl
    have h2 := lex_shape 1 r "A" (word_lit (by decide))
    have h3 : Lex ⟨1, .plain⟩ ", dtype=complex)\n".toList [.sym ',', .word "dtype".toList, .sym '=', .word "complex".toList, .sym ')'] ⟨0, .start 0⟩ := rfl
    refine ((lex_tabs 1 0).append (h1.append (h2.append h3))).cast ?_ (by simp [zerosAtToks])
    simp [shapeAst, String.toList_append, String.intercalate_cons_cons]
  · have := flat_shape "A" r
    unfold zerosAtToks
    exact Flat.append (a := [.word "R".toList, .sym '=', .word "np".toList, .sym '.', .word "zeros".toList, .sym '(', .sym '(', .word "A".toList, .sym ',']) (flat_of rfl)
      (Flat.append this (flat_of rfl))
  · intro w x
    simp [zerosAt]

theorem code_assert (f : Fn) (h : gateName f ≠ "") : Code 4 [tabs 1 ++ "assert truncation." ++ gateName f ++ ", \\",
    tabs 2 ++ "f\"Cannot calculate order " ++ toString f.order ++ " residual for {truncation.cc_truncation_order}\""]
    [.assert (.attr (nameExpr "truncation") (gateName f).toList)
      (.fmt ("Cannot calculate order " ++ toString f.order ++ " residual for {truncation.cc_truncation_order}").toList)] := by
  have hw : Word (gateName f).toList := ⟨by simpa using h, gateName_word f⟩
  have hc : Clean ("Cannot calculate order " ++ toString f.order ++ " residual for {truncation.cc_truncation_order}") :=
    Clean.append (Clean.append ⟨by decide, by decide⟩ (clean_nat _)) ⟨by decide, by decide⟩
  refine Code.lines (t := .word "assert".toList :: ([.word "truncation".toList, .sym '.', .word (gateName f).toList] ++ .sym ',' ::
      [.fstr ("Cannot calculate order " ++ toString f.order ++ " residual for {truncation.cc_truncation_order}").toList])) ?_ (flat_of rfl)
    (head_assert (by simp) (expr_item ((Atom.word "truncation".toList).attr (gateName f).toList).item (by simp)) (expr_item (Atom.fmt _).item (by simp))) rfl
  have h1 : Lex ⟨0, .start 4⟩ "assert truncation.".toList [.line 4, .word "assert".toList, .word "truncation".toList, .sym '.'] ⟨0, .plain⟩ := rfl
  have h2 : ∀ w, Lex ⟨0, .word w⟩ ", \\\n".toList [.word w, .sym ','] ⟨0, .joined⟩ := fun _ => rfl
  have h3 : Lex ⟨0, .joined⟩ ((tabs 2).toList ++ "f\"".toList) [] ⟨0, .fquote '"' []⟩ := rfl
  have h4 := lex_fquote _ [] '"' 0 hc.1 hc.2
  have h5 : ∀ w, Lex ⟨0, .fquote '"' w⟩ "\"\n".toList [.fstr w] ⟨0, .start 0⟩ := fun _ => rfl
  refine ((lex_tabs 1 0).append (h1.append ((lex_word_then hw (h2 _)).append (h3.append (h4.append (h5 _)))))).cast ?_ (by simp)
  simp [String.toList_append]

/-- the beginning of a function of the module -/
structure GoodHead (f : Fn) : Prop where
  unpacked : 1 ≤ f.unpacked
  gate : gateName f ≠ ""

theorem code_head {f : Fn} (h : GoodHead f) : Code 4 (headLines f) (headAst f) := by
  have h1 : Code 4 [tabs 1 ++ "\"\"\"Calculate the " ++ toString f.order ++ " order residual as a function of the W operators.\"\"\""] [.doc] := by
    refine code_doc (w := ("Calculate the " ++ toString f.order ++ " order residual as a function of the W operators.").toList) ?_ ?_
    · have : Clean ("Calculate the " ++ toString f.order ++ " order residual as a function of the W operators.") := Clean.append (Clean.append ⟨by decide, by decide⟩ (clean_nat _)) ⟨by decide, by decide⟩
      exact this.1
    · simp [String.toList_append]
  have h2 : Code 4 [tabs 1 ++ "h_ab, h_abI, h_abi, h_abIj, h_abIJ, h_abij = h_args"] [.assign (hNames.map String.toList) (nameExpr "h_args")] :=
    Code.lines (t := [.word "h_ab".toList, .sym ',', .word "h_abI".toList, .sym ',', .word "h_abi".toList, .sym ',', .word "h_abIj".toList, .sym ',', .word "h_abIJ".toList, .sym ',',
      .word "h_abij".toList, .sym '=', .word "h_args".toList]) rfl (flat_of rfl) rfl rfl
  exact h1.append (h2.append ((code_unpack h.unpacked).append ((((code_zeros f.order)).append (code_assert f h.gate).cons_blank).cons_blank)))

/-- The text of the function can be read. -/
structure GoodFn (f : Fn) : Prop where
  head : GoodHead f
  body : ∀ s ∈ f.body, GoodStmt s

theorem fnName_word (k : Nat) : Word (fnName k).toList := word_str (word_str (word_lit (by decide)) (nat_word k)) (word_lit (by decide))

theorem code_fn {f : Fn} (h : GoodFn f) : Code 0 f.lines [fnAst f] := by
  have e : f.lines = "" :: ("def " ++ fnName f.order ++ "(A, N, truncation, h_args, w_args):") :: (headLines f ++ (f.body.flatMap (fun s => "" :: s.lines) ++ ["", tabs 1 ++ "return R"])) := by
    unfold Fn.lines headLines fnName
    simp only [List.cons_append, List.nil_append, List.append_assoc, String.append_assoc]
    rfl
  have hb : Code 4 (f.body.flatMap fun s => "" :: s.lines) (f.body.map stmtAst) := by
    rw [List.map_eq_flatMap]
    exact Code.flatMap fun s hs => (code_stmt (h.body s hs)).cons_blank
  have hr : Code 4 [tabs 1 ++ "return R"] [.ret (some (nameExpr "R"))] := Code.lines (t := [.word "return".toList, .word "R".toList]) rfl (flat_of rfl) rfl rfl
  have hbody := (code_head h.head).append (hb.append hr.cons_blank)
  rw [e]
  refine Code.cons_blank (Code.defn (k := 0) (k' := 4) (by omega)
    (t := .word "def".toList :: ([.word (fnName f.order).toList, .sym '(', .word "A".toList, .sym ',', .word "N".toList, .sym ',', .word "truncation".toList, .sym ',',
      .word "h_args".toList, .sym ',', .word "w_args".toList, .sym ')'] ++ [.sym ':'])) ?_ (flat_of rfl) rfl hbody (by simp [fnBody, headAst]))
  have h1 : Lex ⟨0, .start 0⟩ "def ".toList [.line 0, .word "def".toList] ⟨0, .plain⟩ := rfl
  have h2 : ∀ w, Lex ⟨0, .word w⟩ "(A, N, truncation, h_args, w_args):\n".toList [.word w, .sym '(', .word "A".toList, .sym ',', .word "N".toList, .sym ',', .word "truncation".toList, .sym ',',
      .word "h_args".toList, .sym ',', .word "w_args".toList, .sym ')', .sym ':'] ⟨0, .start 0⟩ := fun _ => rfl
  exact (h1.append (lex_word_then (fnName_word f.order) (h2 _))).cast (by simp [String.toList_append]) (by simp)

/-! ## The file -/

def importAst : List Spec.Source.Stmt :=
  [.imp [.word "import".toList, .word "numpy".toList, .word "as".toList, .word "np".toList],
   .imp [.word "from".toList, .sym '.', .word "symmetrize".toList, .word "import".toList, .word "symmetrize_tensor".toList]]

theorem code_imports : Code 0 importLines importAst := by
  have h1 : Code 0 ["# system imports", "", "# third party imports", "import numpy as np"] [importAst[0]] := Code.lines rfl (flat_of rfl) rfl rfl
  have h2 : Code 0 ["", "# local imports", "from .symmetrize import symmetrize_tensor"] [importAst[1]] := Code.lines rfl (flat_of rfl) rfl rfl
  exact h1.append (h2.append (Code.blank 0))

theorem code_fns : ∀ {fns : List Fn}, (∀ f ∈ fns, GoodFn f) → Code 0 (fnLines fns) (fns.map fnAst)
  | [], _ => Code.nil 0
  | [f], h => code_fn (h f (by simp))
  | f :: g :: fs, h => ((code_fn (h f (by simp))).append (Code.blank 0)).append (code_fns fun x hx => h x (by simp [List.mem_cons.1 hx])) |>.cast (by simp)

theorem good_fnAt {r k : Nat} (hr : r ≤ 2) (hk : k ≤ 6) : GoodFn (fnAt r k) := by
  have hp : ∀ l, GoodLetters (lineAt k l) := by
    intro l w a b c h
    unfold lineAt at h
    split_ifs at h
    cases h
    have h1 : ∀ x ∈ kLetters, isWord x = true := by decide
    have h2 : ∀ x ∈ iLetters, isWord x = true := by decide
    intro x hx
    simp only [List.mem_append, slice] at hx
    rcases hx with ((((hx | hx) | hx) | ((hx | hx) | hx)) | (hx | hx))
    · revert x; decide
    · exact h1 x (List.mem_of_mem_take hx)
    · exact h2 x (List.mem_of_mem_take hx)
    · revert x; decide
    · exact h1 x (List.mem_of_mem_take hx)
    · exact h2 x (List.mem_of_mem_take (List.mem_of_mem_drop hx))
    · revert x; decide
    · exact h2 x (List.mem_of_mem_take hx)
  have hw : ∀ j hs, hs ≠ [] → ∀ s ∈ wsOf k j hs, GoodStmt s := by
    intro j hs hne s h
    unfold wsOf at h
    split_ifs at h
    · obtain ⟨x, _, rfl⟩ := List.mem_map.1 h
      exact hp x
    · obtain rfl := List.mem_singleton.1 h
      refine ⟨by simpa using hne, fun l hl => ?_⟩
      obtain ⟨x, _, rfl⟩ := List.mem_map.1 hl
      exact hp x
  have hq : ∀ s ∈ quadOf k, GoodStmt s := by
    intro s h
    obtain rfl := List.mem_singleton.1 h
    refine ⟨by simp, ?_, ?_⟩
    · split_ifs <;> simp [Paired]
    · intro x hx
      rcases List.mem_cons.1 hx with rfl | hx
      · exact hp _
      · split_ifs at hx
        · obtain rfl := List.mem_singleton.1 hx
          exact hp _
        · obtain rfl := List.mem_singleton.1 hx
          exact hp _
        · cases hx
  refine ⟨⟨by simp [fnAt], ?_⟩, ?_⟩
  · have : ∀ k ≤ 6, (orderTags[if k ≤ 1 then 1 else k]?).getD "" ≠ "" := by decide
    exact this k hk
  · intro s hs
    have : s ∈ bodyOf r k := hs
    interval_cases r
    · exact hw _ _ (by simp) s this
    · simp only [bodyOf, List.mem_append] at this
      rcases this with (h | h) | h
      · exact hw _ _ (by simp) s h
      · exact hw _ _ (by simp) s h
      · split_ifs at h
        · cases h
        · exact hw _ _ (by simp) s h
    · simp only [bodyOf] at this
      split_ifs at this
      · simp only [List.mem_append] at this
        rcases this with (h | h) | h
        · exact hw _ _ (by simp) s h
        · exact hw _ _ (by simp) s h
        · exact hq s h
      · simp only [List.mem_append] at this
        rcases this with (((h | h) | h) | h) | h
        · exact hw _ _ (by simp) s h
        · exact hw _ _ (by simp) s h
        · exact hq s h
        · exact hw _ _ (by simp) s h
        · exact hw _ _ (by simp) s h
      · simp only [List.mem_append] at this
        rcases this with ((h | h) | h) | h
        · exact hw _ _ (by simp) s h
        · exact hw _ _ (by simp) s h
        · exact hq s h
        · exact hw _ _ (by simp) s h

/-- The text of the file is the imports and the definitions. -/
theorem file_fileText {n r : Nat} (hn : n ≤ 6) (hr : r ≤ 2) :
    ∃ text, fileText n r = .ok text ∧ Spec.Source.file text = some (importAst ++ ((List.range (n + 1)).map (fnAt r)).map fnAst) := by
  refine ⟨_, by rw [fileText, residualModule_eq n r hn hr]; rfl, ?_⟩
  refine Text.file ?_
  have h := code_imports.append (code_fns (fns := (List.range (n + 1)).map (fnAt r)) fun f hf => by
    obtain ⟨k, hk, rfl⟩ := List.mem_map.1 hf
    rw [List.mem_range] at hk
    exact good_fnAt hr (by omega))
  simpa only [List.append_nil] using (Text.code h).append text_blank

end TF.Residual
