import Verif.Lemmas.SourceCode
import Verif.Model.ETModule

/-!
# The text of a generated e^T module, read as Python: statements and functions
-/

namespace TF.ETPy

open TF.Py TF.Spec.Source
open TF.CC (Op tabs hamiltonianTag taylorTag)
open TF.ET (Mode)

/-! ## Products -/

def operandExpr (o : Operand) : Expr := .index (.word o.name.toList) [.tuple [.word (toString o.m).toList, .word (toString o.n).toList]]

/-- the text of the letters -/
def Einsum.text (e : Einsum) : List Char := (", ".intercalate (e.subs.map String.ofList) ++ " -> " ++ String.ofList e.out).toList

def einsumExpr (e : Einsum) : Expr := .call (.attr (.word "np".toList) "einsum".toList) (.str e.text :: e.operands.map operandExpr)

def operandToks (o : Operand) : List Tok :=
  [.word o.name.toList, .sym '[', .sym '(', .word (toString o.m).toList, .sym ',', .word (toString o.n).toList, .sym ')', .sym ']']

def einsumToks (e : Einsum) : List Tok :=
  [.word "np".toList, .sym '.', .word "einsum".toList] ++ .sym '(' :: (([.str e.text] ++ e.operands.flatMap fun o => .sym ',' :: operandToks o) ++ [.sym ')'])

theorem operand_atom (o : Operand) : Atom (operandToks o) (operandExpr o) := by
  have h1 : Args [.word (toString o.m).toList, .sym ',', .word (toString o.n).toList] [.word (toString o.m).toList, .word (toString o.n).toList] :=
    (Atom.word _).item.args.snoc (Atom.word _).item
  exact (Atom.word _).index h1.group.item.args

theorem einsum_atom (e : Einsum) : Atom (einsumToks e) (einsumExpr e) := by
  have h1 := ((Atom.str e.text).item.args).snocs e.operands operandToks operandExpr fun o _ => (operand_atom o).item
  exact ((Atom.word "np".toList).attr "einsum".toList).call h1

/-- the names and letters are such that the text can be read -/
structure GoodCode (e : Einsum) : Prop where
  names : ∀ o ∈ e.operands, Word o.name.toList
  operands : e.operands ≠ []
  letters : ∀ s ∈ e.subs, ∀ c ∈ s, isWord c = true
  out : ∀ c ∈ e.out, isWord c = true

theorem lex_operand {o : Operand} (h : Word o.name.toList) (d : Nat) : Lex ⟨d, .plain⟩ o.render.toList (operandToks o) ⟨d, .plain⟩ := by
  have e : o.render.toList = o.name.toList ++ ("[(".toList ++ ((toString o.m).toList ++ (", ".toList ++ ((toString o.n).toList ++ ")]".toList)))) := by
    simp [Operand.render, String.toList_append]
  rw [e]
  refine lex_word_then h ?_
  have h1 : Lex ⟨d, .word o.name.toList⟩ "[(".toList [.word o.name.toList, .sym '[', .sym '('] ⟨d + 2, .plain⟩ := rfl
  have h2 : ∀ w, Lex ⟨d + 2, .word w⟩ ", ".toList [.word w, .sym ','] ⟨d + 2, .plain⟩ := fun _ => rfl
  have h3 : ∀ w, Lex ⟨d + 2, .word w⟩ ")]".toList [.word w, .sym ')', .sym ']'] ⟨d, .plain⟩ := fun _ => rfl
  exact (h1.append (lex_word_then (nat_word o.m) ((h2 _).append (lex_word_then (nat_word o.n) (h3 _)))))

theorem text_eq (e : Einsum) : e.text = [',', ' '].intercalate e.subs ++ (' ' :: '-' :: '>' :: ' ' :: e.out) := by
  unfold Einsum.text
  rw [String.toList_append, String.toList_append, String.toList_intercalate, List.map_map, String.toList_ofList]
  have : (String.toList ∘ String.ofList) = id := by funext l; simp
  rw [this, List.map_id]
  simp

theorem text_clean {e : Einsum} (h : GoodCode e) {x : Char} (hx : isWord x = false) (h' : x ∉ [',', ' ', '-', '>']) : x ∉ e.text := by
  rw [text_eq]
  intro hm
  have h3 : x ≠ ',' ∧ x ≠ ' ' ∧ x ≠ '-' ∧ x ≠ '>' := by simpa using h'
  rw [List.mem_append] at hm
  rcases hm with hm | hm
  · rcases mem_intercalate' hm with hm | ⟨s, hs, hm⟩
    · simp at hm; tauto
    · exact isWord_ne (h.letters s hs x hm) hx rfl
  · simp only [List.mem_cons] at hm
    rcases hm with hm | hm | hm | hm | hm
    · exact h3.2.1 hm
    · exact h3.2.2.1 hm
    · exact h3.2.2.2 hm
    · exact h3.2.1 hm
    · exact isWord_ne (h.out x hm) hx rfl

theorem lex_einsum {e : Einsum} (h : GoodCode e) (d : Nat) : Lex ⟨d, .plain⟩ e.render.toList (einsumToks e) ⟨d, .plain⟩ := by
  obtain ⟨o, os, ho⟩ : ∃ o os, e.operands = o :: os := List.exists_cons_of_ne_nil h.operands
  have er : e.render.toList = "np.einsum('".toList ++ (e.text ++ ("', ".toList ++ ((", ".intercalate ((o :: os).map Operand.render)).toList ++ ")".toList))) := by
    simp [Einsum.render, Einsum.text, ho, String.toList_append]
  rw [er]
  have h1 : Lex ⟨d, .plain⟩ "np.einsum('".toList [.word "np".toList, .sym '.', .word "einsum".toList, .sym '('] ⟨d + 1, .quote '\'' []⟩ := rfl
  have h2 := lex_quote e.text [] '\'' (d + 1) (text_clean h rfl (by decide)) (text_clean h rfl (by decide))
  have h3 : Lex ⟨d + 1, .quote '\'' ([] ++ e.text)⟩ "', ".toList [.str e.text, .sym ','] ⟨d + 1, .plain⟩ := rfl
  have h4 := lex_commas (d + 1) Operand.render operandToks o os fun x hx => lex_operand (h.names x (ho ▸ hx)) (d + 1)
  have h5 : Lex ⟨d + 1, .plain⟩ ")".toList [.sym ')'] ⟨d, .plain⟩ := rfl
  refine (h1.append (h2.append (h3.append (h4.append h5)))).cast rfl ?_
  simp [einsumToks, ho]

/-! ## Statements -/

/-- `e1 + e2 + ..` -/
def codesExpr (cs : List Einsum) : Expr := Spec.Source.one .sum (cs.map fun c => (false, einsumExpr c))

def prefExpr (q : Rat) : Expr := .prod [(false, .word (toString q.num.toNat).toList), (true, .word (toString q.den).toList)]

def stmtExpr (s : Stmt) : Expr := if s.pref = 1 then codesExpr s.codes else .prod [(false, prefExpr s.pref), (false, codesExpr s.codes)]

/-- the tensor -/
def tensor : Mode → List Char
  | .rhs => "R".toList
  | .lhs => "Z".toList

def stmtAst (mode : Mode) (s : Stmt) : Spec.Source.Stmt := .add (tensor mode) (stmtExpr s)

structure GoodStmt (s : Stmt) : Prop where
  pref : 0 ≤ s.pref.num
  ne : s.codes ≠ []
  codes : ∀ c ∈ s.codes, GoodCode c

def prefToks (q : Rat) : List Tok :=
  if q = 1 then [] else [.sym '(', .word (toString q.num.toNat).toList, .sym '/', .word (toString q.den).toList, .sym ')', .sym '*']

/-- the tokens of the sum -/
def sumToks : List Einsum → List Tok
  | [] => []
  | c :: cs => einsumToks c ++ cs.flatMap fun c => .sym '+' :: einsumToks c

def codesToks (cs : List Einsum) : List Tok :=
  match cs with
  | [c] => einsumToks c
  | cs => .sym '(' :: (sumToks cs ++ [.sym ')'])

theorem sum_toks : ∀ (cs : List Einsum) (t : List Tok) (l : List (Bool × Expr)), Spec.Source.Sum t l →
    Spec.Source.Sum (t ++ cs.flatMap fun c => .sym '+' :: einsumToks c) (l ++ cs.map fun c => (false, einsumExpr c))
  | [], t, l, h => by simpa using h
  | c :: cs, t, l, h => by
    have := sum_toks cs _ _ (h.add (einsum_atom c).term)
    simpa [Spec.Source.one] using this

theorem codes_atom {cs : List Einsum} (h : cs ≠ []) : Atom (codesToks cs) (codesExpr cs) := by
  match cs, h with
  | [c], _ => exact einsum_atom c
  | c :: d :: cs, _ =>
    have := sum_toks (d :: cs) _ _ (einsum_atom c).term.sum
    exact this.item.args.group

theorem stmt_item {s : Stmt} (h : s.codes ≠ []) : Item (prefToks s.pref ++ codesToks s.codes) (stmtExpr s) := by
  unfold prefToks stmtExpr
  split
  · simpa using (codes_atom h).item
  · have h1 : Term [.word (toString s.pref.num.toNat).toList, .sym '/', .word (toString s.pref.den).toList]
        [(false, .word (toString s.pref.num.toNat).toList), (true, .word (toString s.pref.den).toList)] :=
      (Atom.word (toString s.pref.num.toNat).toList).term.mul (Atom.word (toString s.pref.den).toList) true
    have h2 : Atom [.sym '(', .word (toString s.pref.num.toNat).toList, .sym '/', .word (toString s.pref.den).toList, .sym ')'] (prefExpr s.pref) :=
      h1.item.args.group
    exact (h2.term.mul (codes_atom h) false).item

theorem stmtExpr_kw (s : Stmt) (w : List Char) (x : Expr) : stmtExpr s ≠ .kw w x := by
  unfold stmtExpr codesExpr
  split
  · match s.codes with
    | [] => simp [Spec.Source.one]
    | [c] => simp [Spec.Source.one, einsumExpr]
    | c :: d :: cs => simp [Spec.Source.one]
  · simp

theorem lex_pref {q : Rat} (h : 0 ≤ q.num) (d : Nat) : Lex ⟨d, .plain⟩ (prefText q).toList (prefToks q) ⟨d, .plain⟩ := by
  unfold prefText prefToks
  split
  · exact Lex.nil _
  · have e : toString q.num = toString q.num.toNat := by
      obtain ⟨n, hn⟩ := Int.eq_ofNat_of_zero_le h
      rw [hn]
      rfl
    rw [e]
    have er : ("(" ++ toString q.num.toNat ++ " / " ++ toString q.den ++ ") * ").toList =
        "(".toList ++ ((toString q.num.toNat).toList ++ (" / ".toList ++ ((toString q.den).toList ++ ") * ".toList))) := by
      simp [String.toList_append]
    rw [er]
    have h1 : Lex ⟨d, .plain⟩ "(".toList [.sym '('] ⟨d + 1, .plain⟩ := rfl
    have h2 : ∀ w, Lex ⟨d + 1, .word w⟩ " / ".toList [.word w, .sym '/'] ⟨d + 1, .plain⟩ := fun _ => rfl
    have h3 : ∀ w, Lex ⟨d + 1, .word w⟩ ") * ".toList [.word w, .sym ')', .sym '*'] ⟨d, .plain⟩ := fun _ => rfl
    exact h1.append (lex_word_then (nat_word _) ((h2 _).append (lex_word_then (nat_word _) (h3 _))))

/-- the lines inside the brackets -/
theorem lex_codes (k : Nat) : ∀ (c : Einsum) (cs : List Einsum), (∀ x ∈ c :: cs, GoodCode x) →
    Lex ⟨1, .plain⟩ ((((c :: cs).dropLast.map fun c => tabs (k + 1) ++ c.render ++ " +") ++
      ((c :: cs).getLast?.toList.map fun c => tabs (k + 1) ++ c.render)).flatMap fun s => s.toList ++ ['\n']) (sumToks (c :: cs)) ⟨1, .plain⟩
  | c, [], h => by
    have h1 := (lex_tabs_plain (k + 1) 1).append ((lex_einsum (h c (by simp)) 1).append (show Lex ⟨1, .plain⟩ ['\n'] [] ⟨1, .plain⟩ from rfl))
    exact h1.cast (by simp) (by simp [sumToks])
  | c, d :: cs, h => by
    have ih := lex_codes k d cs fun x hx => h x (by simp [List.mem_cons.1 hx])
    have h1 := (lex_tabs_plain (k + 1) 1).append ((lex_einsum (h c (by simp)) 1).append
      (show Lex ⟨1, .plain⟩ " +\n".toList [.sym '+'] ⟨1, .plain⟩ from rfl))
    exact (h1.append ih).cast (by simp [List.getLast?_cons_cons]) (by simp [sumToks])

theorem lex_tensor (mode : Mode) (k : Nat) : Lex ⟨0, .start k⟩ (match mode with | .rhs => "R += " | .lhs => "Z += ").toList
    [.line k, .word (tensor mode), .sym '+', .sym '='] ⟨0, .plain⟩ := by
  cases mode <;> rfl

theorem flat_operand (o : Operand) : Flat (operandToks o) := flat_of rfl

theorem flat_einsum (e : Einsum) : Flat (einsumToks e) := by
  unfold einsumToks
  refine Flat.append (flat_of rfl) (Flat.cons (by simp) (Flat.append (Flat.append (flat_of rfl) (Flat.flatMap fun o _ => ?_)) (flat_of rfl)))
  exact Flat.cons (by simp) (flat_operand o)

theorem flat_codes (cs : List Einsum) : Flat (codesToks cs) := by
  have hs : Flat (sumToks cs) := by
    match cs with
    | [] => exact flat_of rfl
    | c :: cs => exact Flat.append (flat_einsum c) (Flat.flatMap fun c _ => Flat.cons (by simp) (flat_einsum c))
  unfold codesToks
  split
  · exact flat_einsum _
  · exact Flat.cons (by simp) (Flat.append hs (flat_of rfl))

theorem flat_pref (q : Rat) : Flat (prefToks q) := by
  unfold prefToks
  split
  · exact flat_of rfl
  · exact flat_of rfl

theorem lexLines_stmt {mode : Mode} {s : Stmt} (h : GoodStmt s) (k : Nat) :
    LexLines (stmtLines mode k s) (.line (4 * k) :: .word (tensor mode) :: .sym '+' :: .sym '=' :: (prefToks s.pref ++ codesToks s.codes)) := by
  have h0 := (lex_tabs k 0).append ((lex_tensor mode (4 * k)).append (lex_pref h.pref 0))
  unfold LexLines
  have hc := h.codes
  have hne := h.ne
  unfold stmtLines
  match hs : s.codes, hne with
  | [c], _ =>
    rw [hs] at hc
    have h1 := h0.append ((lex_einsum (hc c (by simp)) 0).append (show Lex ⟨0, .plain⟩ ['\n'] [] ⟨0, .start 0⟩ from rfl))
    exact h1.cast (by cases mode <;> simp [String.toList_append]) (by simp [codesToks])
  | c :: d :: cs, _ =>
    rw [hs] at hc
    have h1 : Lex ⟨0, .plain⟩ "(\n".toList [.sym '('] ⟨1, .plain⟩ := rfl
    have h2 := lex_codes k c (d :: cs) hc
    have h3 : Lex ⟨1, .plain⟩ ")\n".toList [.sym ')'] ⟨0, .start 0⟩ := rfl
    have h4 := h0.append (h1.append (h2.append ((lex_tabs_plain k 1).append h3)))
    refine h4.cast ?_ (by simp [codesToks])
    cases mode <;> simp [String.toList_append]

theorem code_stmt {mode : Mode} {s : Stmt} (h : GoodStmt s) (k : Nat) : Code (4 * k) (stmtLines mode k s) [stmtAst mode s] := by
  refine Code.lines (lexLines_stmt h k) ?_ ?_ rfl
  · exact Flat.cons (by simp) (Flat.cons (by simp) (Flat.cons (by simp) (Flat.append (flat_pref _) (flat_codes _))))
  · refine head_add ?_ (expr_item (stmt_item h.ne) (stmtExpr_kw s))
    cases mode <;> decide

/-! ## Blocks -/

/-- the indentation inside a function -/
def indent (s : String) : String := if s = "" then "" else tabs 2 ++ s

theorem indent_ne {s : String} (h : s ≠ "") : indent s = tabs 2 ++ s := if_neg h

theorem render_ne (c : Einsum) : c.render ≠ "" := by
  unfold Einsum.render
  exact append_ne (by decide)

theorem stmtLines_ne {mode : Mode} {k : Nat} {s : Stmt} : ∀ l ∈ stmtLines mode k s, l ≠ "" := by
  intro l hl
  unfold stmtLines at hl
  simp only at hl
  split at hl
  · simp only [List.mem_singleton] at hl
    subst hl
    exact append_ne (render_ne _)
  · simp only [List.mem_cons, List.mem_append, List.mem_map, List.not_mem_nil, or_false] at hl
    rcases hl with (rfl | ⟨c, _, rfl⟩ | ⟨c, _, rfl⟩) | rfl
    · exact append_ne (by decide)
    · exact append_ne (by decide)
    · exact append_ne (render_ne _)
    · exact append_ne (by decide)

theorem stmtLines_tabs (mode : Mode) (k : Nat) (s : Stmt) : (stmtLines mode k s).map (tabs 2 ++ ·) = stmtLines mode (2 + k) s := by
  unfold stmtLines
  simp only
  split
  · simp [tabs_add 2 k, String.append_assoc]
  · simp [tabs_add 2 k, Nat.add_assoc 2 k 1, tabs_add 2 (k + 1), String.append_assoc, Function.comp_def]

/-- the lines can be shifted -/
def Shifts (a b : List String) : Prop := (∀ l ∈ a, l ≠ "") ∧ a.map (tabs 2 ++ ·) = b

theorem Shifts.indent {a b : List String} (h : Shifts a b) : a.map TF.ETPy.indent = b := by
  rw [← h.2]
  exact List.map_congr_left fun l hl => indent_ne (h.1 l hl)

theorem Shifts.append {a b c d : List String} (h : Shifts a b) (h' : Shifts c d) : Shifts (a ++ c) (b ++ d) :=
  ⟨fun l hl => (List.mem_append.1 hl).elim (h.1 l) (h'.1 l), by rw [List.map_append, h.2, h'.2]⟩

theorem Shifts.flatMap {α : Type} {l : List α} {f g : α → List String} (h : ∀ a ∈ l, Shifts (f a) (g a)) : Shifts (l.flatMap f) (l.flatMap g) := by
  induction l with
  | nil => exact ⟨by simp, rfl⟩
  | cons a l ih => exact (h a (by simp)).append (ih fun b hb => h b (by simp [hb]))

theorem Shifts.line {k : Nat} {x : String} (hx : x ≠ "") {a b : List String} (h : Shifts a b) : Shifts ((tabs k ++ x) :: a) ((tabs (2 + k) ++ x) :: b) := by
  refine ⟨?_, ?_⟩
  · intro l hl
    rcases List.mem_cons.1 hl with rfl | hl
    · exact append_ne hx
    · exact h.1 l hl
  · rw [List.map_cons, h.2, tabs_add, String.append_assoc]

theorem shifts_stmt (mode : Mode) (k : Nat) (s : Stmt) : Shifts (stmtLines mode k s) (stmtLines mode (2 + k) s) := ⟨stmtLines_ne, stmtLines_tabs mode k s⟩

theorem shifts_z (mode : Mode) (k : Nat) (l : List ZBlock) : Shifts (zLines mode k l) (zLines mode (2 + k) l) := by
  unfold zLines
  refine Shifts.flatMap fun b _ => ?_
  split
  · exact Shifts.flatMap fun s _ => shifts_stmt mode k s
  · simp only [String.append_assoc]
    exact Shifts.line (append_ne (append_ne (by decide))) (Shifts.flatMap fun s _ => shifts_stmt mode (k + 1) s)

/-- the condition of a gate -/
def gate (x : String) : Expr := .attr (.word "truncation".toList) x.toList

def zTag (i : Nat) : String := "z_at_least_" ++ (hamiltonianTag[i]?).getD ""
def hTag (i : Nat) : String := "h_at_least_" ++ (hamiltonianTag[i]?).getD ""
def tTag (i : Nat) : String := "t_" ++ (taylorTag[i]?).getD ""

def zAst (mode : Mode) (l : List ZBlock) : List Spec.Source.Stmt := l.flatMap fun b =>
  if b.z = 0 then b.stmts.map (stmtAst mode) else [.cond (gate (zTag b.z)) (b.stmts.map (stmtAst mode)) []]

def hBody (mode : Mode) (b : HBlock) : List Spec.Source.Stmt :=
  zAst mode b.zero ++ b.ts.map fun p => .cond (gate (tTag p.1)) (zAst mode p.2) []

def hAst (mode : Mode) (b : HBlock) : List Spec.Source.Stmt :=
  if b.h = 0 then hBody mode b else if (hBody mode b).isEmpty then [] else [.cond (gate (hTag b.h)) (hBody mode b) []]

def partAst (mode : Mode) : Part → List Spec.Source.Stmt
  | .allInvalid => [.pass]
  | .noTerms => [.pass]
  | .code l => l.flatMap (hAst mode)

structure GoodZ (b : ZBlock) : Prop where
  ne : b.stmts ≠ []
  stmts : ∀ s ∈ b.stmts, GoodStmt s

structure GoodH (b : HBlock) : Prop where
  zero : ∀ z ∈ b.zero, GoodZ z
  ne : ∀ p ∈ b.ts, p.2 ≠ []
  ts : ∀ p ∈ b.ts, ∀ z ∈ p.2, GoodZ z

/-- The text of the part can be read. -/
def GoodPart : Part → Prop
  | .allInvalid => True
  | .noTerms => True
  | .code l => (∀ b ∈ l, GoodH b) ∧ ∃ b ∈ l, b.zero ≠ [] ∨ b.ts ≠ []

theorem tag_word (l : List String) (hl : ∀ x ∈ l, ∀ c ∈ x.toList, isWord c = true) (i : Nat) : ∀ c ∈ ((l[i]?).getD "").toList, isWord c = true := by
  intro c hc
  cases h : l[i]? with
  | none => rw [h] at hc; simp at hc
  | some x =>
    rw [h] at hc
    exact hl x (List.mem_of_getElem? h) c hc

theorem zTag_word (i : Nat) : Word (zTag i).toList := by
  unfold zTag
  rw [String.toList_append]
  exact word_append ⟨by simp, by decide⟩ (tag_word _ (by decide) i)

theorem hTag_word (i : Nat) : Word (hTag i).toList := by
  unfold hTag
  rw [String.toList_append]
  exact word_append ⟨by simp, by decide⟩ (tag_word _ (by decide) i)

theorem tTag_word (i : Nat) : Word (tTag i).toList := by
  unfold tTag
  rw [String.toList_append]
  exact word_append ⟨by simp, by decide⟩ (tag_word _ (by decide) i)

theorem code_gate {x : String} (hx : Word x.toList) {k : Nat} {strs : List String} {ss : List Spec.Source.Stmt} (h : Code (4 * (k + 1)) strs ss) (hne : ss ≠ []) :
    Code (4 * k) ((tabs k ++ "if truncation." ++ x ++ ":") :: strs) [.cond (gate x) ss []] := by
  refine Code.cond (by omega) (t := .word "if".toList :: ([.word "truncation".toList, .sym '.', .word x.toList] ++ [.sym ':'])) ?_ (flat_of rfl)
    (head_cond (expr_item ((Atom.word "truncation".toList).attr x.toList).item (by simp))) h hne
  have h1 : Lex ⟨0, .start (4 * k)⟩ "if truncation.".toList [.line (4 * k), .word "if".toList, .word "truncation".toList, .sym '.'] ⟨0, .plain⟩ := rfl
  have h2 : Lex ⟨0, .word x.toList⟩ ":\n".toList [.word x.toList, .sym ':'] ⟨0, .start 0⟩ := rfl
  exact ((lex_tabs k 0).append (h1.append (lex_word_then hx h2))).cast (by simp [String.toList_append]) (by simp)

theorem code_stmts {mode : Mode} {l : List Stmt} (h : ∀ s ∈ l, GoodStmt s) (k : Nat) : Code (4 * k) (l.flatMap (stmtLines mode k)) (l.map (stmtAst mode)) := by
  have := Code.flatMap (k := 4 * k) (l := l) (f := stmtLines mode k) (g := fun s => [stmtAst mode s]) fun s hs => code_stmt (h s hs) k
  rwa [← List.map_eq_flatMap] at this

theorem code_z {mode : Mode} {l : List ZBlock} (h : ∀ b ∈ l, GoodZ b) (k : Nat) : Code (4 * k) (zLines mode k l) (zAst mode l) := by
  unfold zLines zAst
  refine Code.flatMap fun b hb => ?_
  split
  · exact code_stmts (h b hb).stmts k
  · have := code_gate (zTag_word b.z) (k := k) (code_stmts (mode := mode) (h b hb).stmts (k + 1)) (by simp [(h b hb).ne])
    have e : tabs k ++ "if truncation." ++ zTag b.z ++ ":" = tabs k ++ "if truncation.z_at_least_" ++ (hamiltonianTag[b.z]?).getD "" ++ ":" := by
      apply String.toList_injective
      simp [zTag, String.toList_append]
    rwa [e] at this

theorem zAst_ne {mode : Mode} {l : List ZBlock} (h : ∀ b ∈ l, GoodZ b) (hne : l ≠ []) : zAst mode l ≠ [] := by
  obtain ⟨b, l', rfl⟩ := List.exists_cons_of_ne_nil hne
  have hb := (h b (by simp)).ne
  unfold zAst
  rw [List.flatMap_cons]
  split <;> simp [hb]

/-- the lines of the body, shifted by `k` -/
def bodyLines (mode : Mode) (k : Nat) (b : HBlock) : List String :=
  zLines mode k b.zero ++ b.ts.flatMap fun p => (tabs k ++ "if truncation.t_" ++ (taylorTag[p.1]?).getD "" ++ ":") :: zLines mode (k + 1) p.2

theorem code_body {mode : Mode} {b : HBlock} (h : GoodH b) (k : Nat) : Code (4 * k) (bodyLines mode k b) (hBody mode b) := by
  unfold bodyLines hBody
  refine (code_z h.zero k).append ?_
  rw [List.map_eq_flatMap]
  refine Code.flatMap fun p hp => ?_
  have := code_gate (tTag_word p.1) (k := k) (code_z (mode := mode) (h.ts p hp) (k + 1)) (zAst_ne (h.ts p hp) (h.ne p hp))
  have e : tabs k ++ "if truncation." ++ tTag p.1 ++ ":" = tabs k ++ "if truncation.t_" ++ (taylorTag[p.1]?).getD "" ++ ":" := by
    apply String.toList_injective
    simp [tTag, String.toList_append]
  rwa [e] at this

theorem shifts_body (mode : Mode) (k : Nat) (b : HBlock) : Shifts (bodyLines mode k b) (bodyLines mode (2 + k) b) := by
  unfold bodyLines
  refine (shifts_z mode k _).append (Shifts.flatMap fun p _ => ?_)
  simp only [String.append_assoc]
  exact Shifts.line (append_ne (append_ne (by decide))) (shifts_z mode (k + 1) p.2)

theorem stmtLines_nil {mode : Mode} {k : Nat} {s : Stmt} : stmtLines mode k s ≠ [] := by
  unfold stmtLines
  simp only
  split <;> simp

theorem bodyLines_nil {mode : Mode} {k : Nat} {b : HBlock} (h : GoodH b) : bodyLines mode k b = [] ↔ hBody mode b = [] := by
  constructor
  · intro e
    have := code_body (mode := mode) h k
    rw [e] at this
    exact Code.empty this
  · intro e
    unfold hBody at e
    rw [List.append_eq_nil_iff, List.map_eq_nil_iff] at e
    have hz : b.zero = [] := by
      by_contra hne
      exact zAst_ne (mode := mode) h.zero hne e.1
    unfold bodyLines
    rw [hz, e.2]
    rfl

theorem code_h {mode : Mode} {b : HBlock} (h : GoodH b) : Code 8 ((hLines mode b).map indent) (hAst mode b) := by
  unfold hLines hAst
  by_cases h0 : b.h = 0
  · simp only [h0, if_true]
    have := (shifts_body mode 0 b).indent
    unfold bodyLines at this
    rw [this]
    exact code_body h 2
  · simp only [h0, if_false]
    have e : (zLines mode 1 b.zero ++ b.ts.flatMap fun p => (tabs 1 ++ "if truncation.t_" ++ (taylorTag[p.1]?).getD "" ++ ":") :: zLines mode (1 + 1) p.2) =
        bodyLines mode 1 b := rfl
    rw [e]
    by_cases hb : bodyLines mode 1 b = []
    · rw [if_pos hb, if_pos (by simpa using (bodyLines_nil h).1 hb)]
      exact Code.blank 8
    · have hb' : hBody mode b ≠ [] := fun e => hb ((bodyLines_nil h).2 e)
      rw [if_neg hb, if_neg (by simpa using hb'), List.map_cons, List.map_cons, (shifts_body mode 1 b).indent]
      refine Code.cons_blank ?_
      have := code_gate (hTag_word b.h) (k := 2) (code_body (mode := mode) h 3) hb'
      have e : indent ("if truncation.h_at_least_" ++ (hamiltonianTag[b.h]?).getD "" ++ ":") = tabs 2 ++ "if truncation." ++ hTag b.h ++ ":" := by
        rw [indent_ne (append_ne (by decide))]
        apply String.toList_injective
        simp [hTag, String.toList_append]
      rw [e]
      exact this

theorem indent_eq {s : String} : indent s = "" ↔ s = "" := by
  constructor
  · intro h
    by_contra hs
    rw [indent_ne hs] at h
    exact append_ne hs h
  · rintro rfl; rfl

theorem squeeze_indent : ∀ l : List String, (squeeze l).map indent = squeeze (l.map indent)
  | [] => rfl
  | [a] => rfl
  | a :: b :: l => by
    have ih := squeeze_indent (b :: l)
    show (if a = "" ∧ b = "" then squeeze (b :: l) else a :: squeeze (b :: l)).map indent =
      if indent a = "" ∧ indent b = "" then squeeze (indent b :: l.map indent) else indent a :: squeeze (indent b :: l.map indent)
    by_cases h : a = "" ∧ b = ""
    · rw [if_pos h, if_pos ⟨indent_eq.2 h.1, indent_eq.2 h.2⟩]
      exact ih
    · rw [if_neg h, if_neg (fun h' => h ⟨indent_eq.1 h'.1, indent_eq.1 h'.2⟩), List.map_cons, ih]
      rfl

theorem hAst_ne {mode : Mode} {b : HBlock} (h : GoodH b) (hne : b.zero ≠ [] ∨ b.ts ≠ []) : hAst mode b ≠ [] := by
  have hb : hBody mode b ≠ [] := by
    unfold hBody
    rcases hne with hne | hne
    · simp [zAst_ne (mode := mode) h.zero hne]
    · simp [hne]
  unfold hAst
  split
  · exact hb
  · rw [if_neg (by simpa using hb)]; simp

theorem partAst_ne {mode : Mode} {p : Part} (h : GoodPart p) : partAst mode p ≠ [] := by
  cases p with
  | allInvalid => simp [partAst]
  | noTerms => simp [partAst]
  | code l =>
    obtain ⟨h1, b, hb, hne⟩ := h
    have := hAst_ne (mode := mode) (h1 b hb) hne
    intro e
    simp only [partAst, List.flatMap_eq_nil_iff] at e
    exact this (e b hb)

theorem code_part {mode : Mode} {p : Part} (h : GoodPart p) : Code 8 ((p.lines mode).map indent) (partAst mode p) := by
  cases p with
  | allInvalid => exact Code.lines (t := [.word "pass".toList]) (s := .pass) rfl (flat_of rfl) rfl rfl
  | noTerms => exact Code.lines (t := [.word "pass".toList]) (s := .pass) rfl (flat_of rfl) rfl rfl
  | code l =>
    obtain ⟨h1, b, hb, hne⟩ := h
    have hc : Code 8 ((l.flatMap (hLines mode)).map indent) (l.flatMap (hAst mode)) := by
      rw [List.map_flatMap]
      exact Code.flatMap fun b hb => code_h (h1 b hb)
    have hr : l.flatMap (hLines mode) ≠ [] := by
      intro e
      rw [e] at hc
      have h2 := Code.empty hc
      rw [List.flatMap_eq_nil_iff] at h2
      exact hAst_ne (mode := mode) (h1 b hb) hne (h2 b hb)
    have hs : Code 8 ((squeeze (l.flatMap (hLines mode))).map indent) (l.flatMap (hAst mode)) := by
      rw [squeeze_indent]
      exact hc.squeeze (f := squeeze) rfl (fun _ => rfl) (fun _ _ _ => rfl)
    unfold Part.lines
    simp only [if_neg hr]
    split
    · rename_i r e
      rw [e] at hs
      exact Code.tail hs
    · exact hs

end TF.ETPy
