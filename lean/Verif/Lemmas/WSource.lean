import Verif.Lemmas.SourceConst
import Verif.Lemmas.SourceRun
import Verif.Lemmas.W
import Verif.Lemmas.ResidualSource
import Verif.Model.WText
import Mathlib.Tactic.IntervalCases

/-!
# The text of the generated W module, read as Python: contributions
-/

namespace TF.W

set_option maxRecDepth 10000

open TF.Py TF.Helper TF.Spec.Source
open TF.Spec.PyRun (zerosAt)
open TF.CC (tabs)

/-! ## Names -/

theorem tString_toList (n : Nat) : (tString n).toList = 't' :: '_' :: modeTags.take n := by
  simp [tString, String.toList_append]

theorem tString_word (n : Nat) : Word (tString n).toList := by
  rw [tString_toList]
  refine word_append (a := ['t', '_']) ⟨by simp, by decide⟩ fun c hc => ?_
  have : ∀ c ∈ modeTags, isWord c = true := by decide
  exact this c (List.mem_of_mem_take hc)

def wName (k : Nat) : String := "W_" ++ toString k

theorem wName_word (k : Nat) : Word (wName k).toList := word_str (word_lit (by decide)) (nat_word k)

theorem wName_keyword (k : Nat) : ∀ w ∈ keywords, (wName k).toList ≠ w.toList := by
  have h : (wName k).toList = 'W' :: '_' :: (toString k).toList := by simp [wName, String.toList_append]
  rw [h]
  intro w hw e
  have : ∀ w ∈ keywords, w.toList.head? ≠ some 'W' := by decide
  exact this w hw (by rw [← e]; rfl)

theorem tString_keyword (k : Nat) : ∀ w ∈ keywords, (tString k).toList ≠ w.toList := by
  rw [tString_toList]
  intro w hw e
  have : ∀ w ∈ keywords, w.toList.head? ≠ some 't' := by decide
  exact this w hw (by rw [← e]; rfl)

theorem tag_word (i : Nat) : ∀ c ∈ ((orderTags[i]?).getD "").toList, isWord c = true := by
  cases h : orderTags[i]? with
  | none => simp
  | some x =>
    have : ∀ x ∈ orderTags, ∀ c ∈ x.toList, isWord c = true := by decide
    exact this x (List.mem_of_getElem? h)

theorem tag_word' {i : Nat} (h1 : 1 ≤ i) (h2 : i ≤ 6) : Word ((orderTags[i]?).getD "").toList := by
  refine ⟨?_, tag_word i⟩
  interval_cases i <;> decide

/-! ## Prefactors -/

def natWord (n : Nat) : Expr := .word (toString n).toList

def factExpr (n : Nat) : Expr := .call (nameExpr "factorial") [natWord n]

def factToks (n : Nat) : List Tok := [.word "factorial".toList, .sym '(', .word (toString n).toList, .sym ')']

def factString (n : Nat) : String := "factorial(" ++ toString n ++ ")"

/-- the denominator -/
def denomExpr (l : List Nat) : Expr := Spec.Source.one .prod (l.map fun n => (false, factExpr n))

/-- the factors of `1/.. * e` -/
def prefTerm (l : List Nat) (e : Expr) : List (Bool × Expr) := [(false, nameExpr "1"), (true, denomExpr l), (false, e)]

def denomToks : List Nat → List Tok
  | [] => []
  | [n] => factToks n
  | n :: l => .sym '(' :: ((factToks n ++ l.flatMap fun n => .sym '*' :: factToks n) ++ [.sym ')'])

theorem fact_atom (n : Nat) : Atom (factToks n) (factExpr n) := (Atom.word "factorial".toList).call (Atom.word (toString n).toList).item.args

theorem facts_term : ∀ (l : List Nat) (t : List Tok) (m : List (Bool × Expr)), Term t m →
    Term (t ++ l.flatMap fun n => .sym '*' :: factToks n) (m ++ l.map fun n => (false, factExpr n))
  | [], t, m, h => by simpa using h
  | n :: l, t, m, h => by
    have := facts_term l _ _ (h.mul (fact_atom n) false)
    simpa using this

theorem denom_atom {l : List Nat} (h : l ≠ []) : Atom (denomToks l) (denomExpr l) := by
  match l, h with
  | [n], _ => exact fact_atom n
  | n :: m :: l, _ =>
    have := facts_term (m :: l) _ _ (fact_atom n).term
    exact this.item.args.group

theorem lex_fact (n d : Nat) : Lex ⟨d, .plain⟩ (factString n).toList (factToks n) ⟨d, .plain⟩ := by
  have h1 : Lex ⟨d, .plain⟩ "factorial(".toList [.word "factorial".toList, .sym '('] ⟨d + 1, .plain⟩ := rfl
  have h2 : ∀ w, Lex ⟨d + 1, .word w⟩ ")".toList [.word w, .sym ')'] ⟨d, .plain⟩ := fun _ => rfl
  exact (h1.append (lex_word_then (nat_word n) (h2 _))).cast (by simp [factString, String.toList_append]) (by simp [factToks])

theorem renderPref_cons (n m : Nat) (l : List Nat) : renderPref (n :: m :: l) = "1/(" ++ " * ".intercalate ((n :: m :: l).map factString) ++ ")" := rfl

theorem lex_pref {l : List Nat} (h : l ≠ []) (d : Nat) :
    Lex ⟨d, .plain⟩ (renderPref l ++ " * ").toList (.word "1".toList :: .sym '/' :: (denomToks l ++ [.sym '*'])) ⟨d, .plain⟩ := by
  have h3 : Lex ⟨d, .plain⟩ " * ".toList [.sym '*'] ⟨d, .plain⟩ := rfl
  match l, h with
  | [n], _ =>
    have h1 : Lex ⟨d, .plain⟩ "1/".toList [.word "1".toList, .sym '/'] ⟨d, .plain⟩ := rfl
    exact (h1.append ((lex_fact n d).append h3)).cast (by simp [renderPref, factString, String.toList_append]) (by simp [denomToks])
  | n :: m :: l, _ =>
    have h1 : Lex ⟨d, .plain⟩ "1/(".toList [.word "1".toList, .sym '/', .sym '('] ⟨d + 1, .plain⟩ := rfl
    have hs : Lex ⟨d + 1, .plain⟩ " * ".toList [.sym '*'] ⟨d + 1, .plain⟩ := rfl
    have h2 := lex_seps hs factString factToks n (m :: l) fun x _ => lex_fact x (d + 1)
    have h4 : Lex ⟨d + 1, .plain⟩ ")".toList [.sym ')'] ⟨d, .plain⟩ := rfl
    refine (h1.append (h2.append (h4.append h3))).cast ?_ (by simp [denomToks])
    rw [renderPref_cons]
    simp only [String.toList_append, List.append_assoc]

theorem flat_fact (n : Nat) : Flat (factToks n) := flat_of rfl

theorem flat_denom (l : List Nat) : Flat (denomToks l) := by
  match l with
  | [] => exact flat_of rfl
  | [n] => exact flat_fact n
  | n :: m :: l =>
    exact Flat.cons (by simp) (Flat.append (Flat.append (flat_fact n) (Flat.flatMap fun x _ => Flat.cons (by simp) (flat_fact x))) (flat_of rfl))

theorem pref_term {l : List Nat} (h : l ≠ []) {t : List Tok} {e : Expr} (ht : Atom t e) :
    Item ((.word "1".toList :: .sym '/' :: (denomToks l ++ [.sym '*'])) ++ t) (.prod (prefTerm l e)) := by
  have := (((Atom.word "1".toList).term.mul (denom_atom h) true).mul ht false).item
  simpa [prefTerm, nameExpr, Spec.Source.one] using this

/-! ## Sums -/

/-- How the items of a sum are read. -/
structure Reading (ι : Type) where
  text : ι → String
  toks : ι → List Tok
  expr : ι → Expr
  atom : ∀ i, Atom (toks i) (expr i)
  flat : ∀ i, Flat (toks i)

namespace Reading

variable {ι : Type} (r : Reading ι)

/-- the text of the item can be read -/
def Good (i : ι) : Prop := ∀ d, Lex ⟨d, .plain⟩ (r.text i).toList (r.toks i) ⟨d, .plain⟩

def sumExpr (l : List ι) : Expr := Spec.Source.one .sum (l.map fun i => (false, r.expr i))

def sumToks : List ι → List Tok
  | [] => []
  | i :: l => r.toks i ++ l.flatMap fun i => .sym '+' :: r.toks i

theorem flat_sum : ∀ l : List ι, Flat (r.sumToks l)
  | [] => flat_of rfl
  | i :: l => Flat.append (r.flat i) (Flat.flatMap fun i _ => Flat.cons (by simp) (r.flat i))

theorem sums : ∀ (l : List ι) (t : List Tok) (m : List (Bool × Expr)), Spec.Source.Sum t m →
    Spec.Source.Sum (t ++ l.flatMap fun i => .sym '+' :: r.toks i) (m ++ l.map fun i => (false, r.expr i))
  | [], t, m, h => by simpa using h
  | i :: l, t, m, h => by
    have := sums l _ _ (h.add (r.atom i).term)
    simpa [Spec.Source.one] using this

theorem sum_atom {l : List ι} (h : l ≠ []) : Atom (.sym '(' :: (r.sumToks l ++ [.sym ')'])) (r.sumExpr l) := by
  obtain ⟨i, l, rfl⟩ := List.exists_cons_of_ne_nil h
  have := r.sums l _ _ (r.atom i).term.sum
  exact this.item.args.group

/-- the lines inside the brackets -/
theorem lex_lines (k : Nat) : ∀ (c : ι) (cs : List ι), (∀ x ∈ c :: cs, r.Good x) →
    Lex ⟨1, .plain⟩ ((((c :: cs).dropLast.map fun c => tabs (k + 1) ++ r.text c ++ " +") ++
      ((c :: cs).getLast?.toList.map fun c => tabs (k + 1) ++ r.text c)).flatMap fun s => s.toList ++ ['\n']) (r.sumToks (c :: cs)) ⟨1, .plain⟩
  | c, [], h => by
    have h1 := (lex_tabs_plain (k + 1) 1).append ((h c (by simp) 1).append (show Lex ⟨1, .plain⟩ ['\n'] [] ⟨1, .plain⟩ from rfl))
    exact h1.cast (by simp) (by simp [sumToks])
  | c, d :: cs, h => by
    have ih := lex_lines k d cs fun x hx => h x (by simp [List.mem_cons.1 hx])
    have h1 := (lex_tabs_plain (k + 1) 1).append ((h c (by simp) 1).append
      (show Lex ⟨1, .plain⟩ " +\n".toList [.sym '+'] ⟨1, .plain⟩ from rfl))
    exact (h1.append ih).cast (by simp [List.getLast?_cons_cons]) (by simp [sumToks])

def addAst (order : Nat) (b : WBlock ι) : Spec.Source.Stmt := .add (wName order).toList (.prod (prefTerm b.pref (r.sumExpr b.items)))

/-- the contribution can be read -/
structure GoodBlock (b : WBlock ι) : Prop where
  direct : b.direct = none
  pref : b.pref ≠ []
  ne : b.items ≠ []
  items : ∀ i ∈ b.items, r.Good i
  gate : ∀ g, b.gate = some g → 1 ≤ g ∧ g ≤ 6

theorem lex_start (order k : Nat) {l : List Nat} (h : l ≠ []) :
    Lex ⟨0, .start 0⟩ (tabs k ++ ("W_" ++ toString order ++ " += " ++ renderPref l ++ " * ")).toList
      (.line (4 * k) :: .word (wName order).toList :: .sym '+' :: .sym '=' :: (.word "1".toList :: .sym '/' :: (denomToks l ++ [.sym '*']))) ⟨0, .plain⟩ := by
  have h0 : Lex ⟨0, .start (4 * k)⟩ "W_".toList [.line (4 * k)] ⟨0, .word "W_".toList⟩ := rfl
  have h1 := lex_word_more (toString order).toList "W_".toList 0 (nat_word order).2
  have h2 : ∀ w, Lex ⟨0, .word w⟩ " += ".toList [.word w, .sym '+', .sym '='] ⟨0, .plain⟩ := fun _ => rfl
  refine ((lex_tabs k 0).append (h0.append (h1.append ((h2 _).append (lex_pref h 0))))).cast ?_ ?_
  · simp [String.toList_append]
  · simp [wName, String.toList_append]

theorem code_add {order k : Nat} {b : WBlock ι} (h : r.GoodBlock b) : Code (4 * k) (addLines r.text order k b) [r.addAst order b] := by
  obtain ⟨i, l, hi⟩ := List.exists_cons_of_ne_nil h.ne
  refine Code.lines (t := .word (wName order).toList :: .sym '+' :: .sym '=' ::
    ((.word "1".toList :: .sym '/' :: (denomToks b.pref ++ [.sym '*'])) ++ (.sym '(' :: (r.sumToks b.items ++ [.sym ')'])))) ?_ ?_
    (head_add (wName_keyword order) (expr_item (pref_term h.pref (r.sum_atom h.ne)) (by simp))) rfl
  · unfold addLines
    rw [h.direct]
    have hs := lex_start order k h.pref
    unfold sumLines LexLines
    cases hg : b.gate with
    | none =>
      have h1 : Lex ⟨0, .plain⟩ "(".toList [.sym '('] ⟨1, .plain⟩ := rfl
      have hp : Lex ⟨1, .plain⟩ " + ".toList [.sym '+'] ⟨1, .plain⟩ := rfl
      have h2 := lex_seps hp r.text r.toks i l fun x hx => h.items x (hi ▸ hx) 1
      have h3 : Lex ⟨1, .plain⟩ ")\n".toList [.sym ')'] ⟨0, .start 0⟩ := rfl
      refine (hs.append (h1.append (h2.append h3))).cast ?_ ?_
      · rw [hi]; simp [String.toList_append]
      · rw [hi]; simp [sumToks]
    | some g =>
      have h1 : Lex ⟨0, .plain⟩ "(\n".toList [.sym '('] ⟨1, .plain⟩ := rfl
      have h2 := r.lex_lines k i l fun x hx => h.items x (hi ▸ hx)
      have h3 : Lex ⟨1, .plain⟩ ")\n".toList [.sym ')'] ⟨0, .start 0⟩ := rfl
      refine (hs.append (h1.append (h2.append ((lex_tabs_plain k 1).append h3)))).cast ?_ ?_
      · rw [hi]
        simp only [List.flatMap_append, List.flatMap_cons, List.flatMap_nil, String.toList_append, List.append_assoc, List.append_nil]
        rfl
      · rw [hi]; simp
  · exact Flat.cons (by simp) (Flat.cons (by simp) (Flat.cons (by simp) (Flat.append (Flat.cons (by simp) (Flat.cons (by simp) (Flat.append (flat_denom _) (flat_of rfl))))
      (Flat.cons (by simp) (Flat.append (r.flat_sum _) (flat_of rfl))))))

def gateExpr (x : String) : Expr := .attr (nameExpr "truncation") x.toList

def blockAst (order : Nat) (b : WBlock ι) : Spec.Source.Stmt :=
  match b.gate with
  | none => r.addAst order b
  | some g => .cond (gateExpr ((orderTags[g]?).getD "")) [r.addAst order b] []

end Reading

theorem code_gate {x : String} (hx : Word x.toList) {k : Nat} {strs : List String} {ss : List Spec.Source.Stmt} (h : Code (4 * (k + 1)) strs ss) (hne : ss ≠ []) :
    Code (4 * k) ((tabs k ++ "if truncation." ++ x ++ ":") :: strs) [.cond (Reading.gateExpr x) ss []] := by
  refine Code.cond (by omega) (t := .word "if".toList :: ([.word "truncation".toList, .sym '.', .word x.toList] ++ [.sym ':'])) ?_ (flat_of rfl)
    (head_cond (expr_item ((Atom.word "truncation".toList).attr x.toList).item (by simp))) h hne
  have h1 : Lex ⟨0, .start (4 * k)⟩ "if truncation.".toList [.line (4 * k), .word "if".toList, .word "truncation".toList, .sym '.'] ⟨0, .plain⟩ := rfl
  have h2 : Lex ⟨0, .word x.toList⟩ ":\n".toList [.word x.toList, .sym ':'] ⟨0, .start 0⟩ := rfl
  exact ((lex_tabs k 0).append (h1.append (lex_word_then hx h2))).cast (by simp [String.toList_append]) (by simp)

theorem code_note (x : Nat) : Code 4 [tabs 1 ++ "# " ++ ((orderTags[x]?).getD "").toUpper ++ " contribution"] [] := by
  have hc : '\n' ∉ (((orderTags[x]?).getD "").toUpper).toList := by
    cases h : orderTags[x]? with
    | none => decide +kernel
    | some y =>
      have : ∀ y ∈ orderTags, '\n' ∉ y.toUpper.toList := by decide +kernel
      exact this y (List.mem_of_getElem? h)
  refine code_comment (n := 1) (w := ' ' :: (((orderTags[x]?).getD "").toUpper.toList ++ " contribution".toList)) (by simp [String.toList_append]) ?_
  simp [hc]

namespace Reading

variable {ι : Type} (r : Reading ι)

theorem code_block {order : Nat} {b : WBlock ι} (h : r.GoodBlock b) : Code 4 (b.lines r.text order) [r.blockAst order b] := by
  unfold WBlock.lines blockAst
  refine Code.append (a := [_]) (s := []) (code_note _) ?_
  cases hg : b.gate with
  | none => exact r.code_add h (k := 1)
  | some g =>
    have h1 := h.gate g hg
    have := code_gate (tag_word' h1.1 h1.2) (k := 1) (r.code_add h (order := order) (k := 2)) (by simp)
    simpa [blockName, hg] using this

end Reading

/-! ## Functions that add contributions -/

def contributionsName (kind : Kind) (opt : Bool) (order : Nat) : String := "_add_order_" ++ toString order ++ "_" ++ kind.name ++ "_contributions" ++ optSuffix opt

def contributionsParams (opt : Bool) (order : Nat) : List String := [wName order, "t_args", "truncation"] ++ if opt then ["opt_path_list"] else []

def raiseAst : Kind → List Spec.Source.Stmt
  | .vemx => [.doc, .raise (.call (nameExpr "Exception") [.str ("the first possible purely VECI/CC term is (1, 1) or (dt_i * t_i)" ++ "which requires a W operator of at least 2nd order").toList])]
  | .vecc => [.doc, .raise (.call (nameExpr "Exception") [.str ("the first possible purely VECC term is (2, 2) or (dt_ij * t_ij)" ++ "which requires a W operator of at least 4th order").toList])]

def unpackAst (ns : List Nat) : Spec.Source.Stmt := .unpack (ns.map fun n => (tString n).toList) "unusedargs".toList (nameExpr "t_args")

def iterAst : Spec.Source.Stmt := .assign ["optimized_einsum".toList] (.call (nameExpr "iter") [nameExpr "opt_path_list"])

def contributionsBody {ι : Type} (r : Reading ι) (kind : Kind) (opt : Bool) (order : Nat) (c : WContributions ι) : List Spec.Source.Stmt :=
  match c.blocks with
  | none => raiseAst kind
  | some bs => [.doc, unpackAst c.unpacked] ++ (if opt then [iterAst] else []) ++ bs.map (r.blockAst order) ++ [.ret none]

def contributionsAst {ι : Type} (r : Reading ι) (kind : Kind) (opt : Bool) (order : Nat) (c : WContributions ι) : Spec.Source.Stmt :=
  .defn (contributionsName kind opt order).toList ((contributionsParams opt order).map String.toList) (contributionsBody r kind opt order c)

theorem code_unpack {ns : List Nat} (h : ns ≠ []) : Code 4 [unpackLine ns] [unpackAst ns] := by
  obtain ⟨n, ns, rfl⟩ := List.exists_cons_of_ne_nil h
  refine Code.lines (t := commaToks (((n :: ns).map tString).map String.toList) ++ .sym '*' :: .word "unusedargs".toList :: .sym '=' :: [.word "t_args".toList]) ?_
    (Flat.append (flat_commaToks _) (flat_of rfl)) ?_ rfl
  · have h0 : Lex ⟨0, .start 4⟩ ['t'] [.line 4] ⟨0, .word ['t']⟩ := rfl
    have h1 := lex_word_more ('_' :: modeTags.take n) ['t'] 0 (fun c hc => (tString_word n).2 c (by rw [tString_toList]; exact List.mem_cons_of_mem _ hc))
    have hc : ∀ w, Lex ⟨0, .word w⟩ ", ".toList [.word w, .sym ','] ⟨0, .plain⟩ := fun _ => rfl
    have h2 := lex_comma_names 0 (ws := ns.map tString) (by
      intro w hw
      obtain ⟨k, _, rfl⟩ := List.mem_map.1 hw
      exact tString_word k)
    have h3 : Lex ⟨0, .plain⟩ "*unusedargs = t_args\n".toList [.sym '*', .word "unusedargs".toList, .sym '=', .word "t_args".toList] ⟨0, .start 0⟩ := rfl
    have := (lex_tabs 1 0).append (h0.append (h1.append ((hc _).append (h2.append h3))))
    refine this.cast ?_ ?_
    · have hs : "*unusedargs".toList ++ (" = t_args".toList ++ ['\n']) = "*unusedargs = t_args\n".toList := rfl
      unfold unpackLine
      simp only [List.flatMap_cons, List.flatMap_nil, String.toList_append, toList_commas, List.append_assoc, List.append_nil, hs, List.map_cons, tString_toList]
      simp
    · simp [commaToks, tString_toList]
  · have := head_unpack (w := (tString n).toList) (x := "unusedargs".toList) (ws := ns.map fun n => (tString n).toList) (r := [.word "t_args".toList]) (e := nameExpr "t_args")
      (tString_keyword n) rfl
    simpa [unpackAst, Function.comp_def] using this

theorem kind_word (kind : Kind) : Word kind.name.toList := by cases kind <;> exact word_lit (by decide)

theorem contributionsName_word (kind : Kind) (opt : Bool) (order : Nat) : Word (contributionsName kind opt order).toList := by
  have h1 : Word ("_add_order_" ++ toString order ++ "_" ++ kind.name ++ "_contributions").toList :=
    word_str (word_str (word_str (word_str (word_lit (by decide)) (nat_word order)) (word_lit (by decide))) (kind_word kind)) (word_lit (by decide))
  cases opt
  · simpa [contributionsName, optSuffix] using h1
  · exact word_str h1 (word_lit (by decide))

/-- the tokens after the name of a function -/
def contributionsToks (opt : Bool) (order : Nat) (x : String) : List Tok :=
  [.sym '(', .word (wName order).toList, .sym ',', .word "t_args".toList, .sym ',', .word "truncation".toList] ++
    (if opt then [.sym ',', .word x.toList] else []) ++ [.sym ')']

theorem lex_contributionsArgs (opt : Bool) (order : Nat) {x : String} (hx : Word x.toList) {w : List Char} {l : List Char} {t : List Tok} {s : St}
    (h : Lex ⟨0, .plain⟩ l t s) :
    Lex ⟨0, .word w⟩ (("(W_" ++ toString order ++ ", t_args, truncation" ++ (if opt then ", " ++ x else "") ++ ")").toList ++ l)
      (.word w :: (contributionsToks opt order x ++ t)) s := by
  have h1 : Lex ⟨0, .word w⟩ "(".toList [.word w, .sym '('] ⟨1, .plain⟩ := rfl
  cases opt with
  | false =>
    have h2 : Lex ⟨1, .word (wName order).toList⟩ ", t_args, truncation)".toList
      [.word (wName order).toList, .sym ',', .word "t_args".toList, .sym ',', .word "truncation".toList, .sym ')'] ⟨0, .plain⟩ := rfl
    exact ((h1.append (lex_word_then (wName_word order) h2)).append h).cast (by simp [wName, String.toList_append]) (by simp [contributionsToks])
  | true =>
    have h2 : Lex ⟨1, .word (wName order).toList⟩ ", t_args, truncation, ".toList
      [.word (wName order).toList, .sym ',', .word "t_args".toList, .sym ',', .word "truncation".toList, .sym ','] ⟨1, .plain⟩ := rfl
    have h3 : Lex ⟨1, .word x.toList⟩ ")".toList [.word x.toList, .sym ')'] ⟨0, .plain⟩ := rfl
    exact ((h1.append ((lex_word_then (wName_word order) h2).append (lex_word_then hx h3))).append h).cast (by simp [wName, String.toList_append])
      (by simp [contributionsToks])

theorem lex_contributionsHead (kind : Kind) (opt : Bool) (order : Nat) :
    LexLines [contributionsHead kind opt order] (.line 0 :: .word "def".toList :: .word (contributionsName kind opt order).toList :: (contributionsToks opt order "opt_path_list" ++ [.sym ':'])) := by
  have h1 : Lex ⟨0, .start 0⟩ "def ".toList [.line 0, .word "def".toList] ⟨0, .plain⟩ := rfl
  have h2 : Lex ⟨0, .plain⟩ ":\n".toList [.sym ':'] ⟨0, .start 0⟩ := rfl
  have hw : Word "opt_path_list".toList := word_lit (by decide)
  have h3 := lex_contributionsArgs opt order hw (w := (contributionsName kind opt order).toList) h2
  have h4 := h1.append (lex_word_then (contributionsName_word kind opt order) h3)
  have e : (if opt then ", opt_path_list" else "") = (if opt then ", " ++ "opt_path_list" else "") := by cases opt <;> decide
  unfold LexLines
  refine h4.cast ?_ rfl
  unfold contributionsHead contributionsName
  rw [e]
  have e2 : ∀ x : String, (x ++ "):").toList ++ ['\n'] = (x ++ ")").toList ++ ":\n".toList := by intro x; simp [String.toList_append]
  simp only [List.flatMap_cons, List.flatMap_nil, List.append_nil]
  rw [e2]
  simp only [String.toList_append, List.append_assoc]
  simp

theorem head_contributions (kind : Kind) (opt : Bool) (order : Nat) :
    head (.word "def".toList :: .word (contributionsName kind opt order).toList :: (contributionsToks opt order "opt_path_list" ++ [.sym ':'])) =
      some (.defn (contributionsName kind opt order).toList ((contributionsParams opt order).map String.toList)) := by
  cases opt <;> rfl

theorem flat_contributions (kind : Kind) (opt : Bool) (order : Nat) :
    Flat (.word "def".toList :: .word (contributionsName kind opt order).toList :: (contributionsToks opt order "opt_path_list" ++ [.sym ':'])) := by
  cases opt <;> exact flat_of rfl

/-- a string in triple quotes that may contain single quotation marks -/
theorem code_docText {strs : List String} {w : List Char} (hw : Lex ⟨0, .doc 0⟩ w [] ⟨0, .doc 0⟩)
    (h : (strs.flatMap fun s => s.toList ++ ['\n']) = (tabs 1).toList ++ ("\"\"\"".toList ++ (w ++ "\"\"\"\n".toList))) : Code 4 strs [.doc] := by
  refine Code.lines (t := [.doc]) ?_ (flat_of rfl) rfl rfl
  unfold LexLines
  rw [h]
  have h1 : Lex ⟨0, .start (4 * 1)⟩ "\"\"\"".toList [.line 4] ⟨0, .doc 0⟩ := rfl
  have h2 : Lex ⟨0, .doc 0⟩ "\"\"\"\n".toList [.doc] ⟨0, .start 0⟩ := rfl
  exact ((lex_tabs 1 0).append (h1.append (hw.append h2))).cast rfl (by simp)

theorem code_contributionsDoc (kind : Kind) (opt : Bool) (order : Nat) : Code 4 (contributionsDoc kind opt order) [.doc] := by
  have h0 : Lex ⟨0, .doc 0⟩ "Calculate the order ".toList [] ⟨0, .doc 0⟩ := rfl
  have h1 : Lex ⟨0, .doc 0⟩ (toString order).toList [] ⟨0, .doc 0⟩ := lex_doc _ 0 (clean_nat order).1
  cases kind <;> cases opt
  · have h2 : Lex ⟨0, .doc 0⟩ " VECI/CC (mixed) contributions to the W operator\n    for use in the calculation of the residuals.\n    ".toList [] ⟨0, .doc 0⟩ := lex_doc _ 0 (by simp [String.toList_append])
    refine code_docText (h0.append (h1.append h2)) ?_
    simp [contributionsDoc, String.toList_append, toList_tabs, List.replicate_succ]
  · have h2 : Lex ⟨0, .doc 0⟩ (" VECI/CC (mixed) contributions to the W operator\n    for use in the calculation of the residuals.\n    " ++
      "Uses optimized summation paths generate using `contract_expression` from the `opt_einsum` library.\n    ").toList [] ⟨0, .doc 0⟩ := lex_doc _ 0 (by simp [String.toList_append])
    refine code_docText (h0.append (h1.append h2)) ?_
    simp [contributionsDoc, String.toList_append, toList_tabs, List.replicate_succ]
  · have h2 : Lex ⟨0, .doc 0⟩ " VECC contributions to the W operator\n    for use in the calculation of the residuals.\n    ".toList [] ⟨0, .doc 0⟩ := lex_doc _ 0 (by simp [String.toList_append])
    refine code_docText (h0.append (h1.append h2)) ?_
    simp [contributionsDoc, String.toList_append, toList_tabs, List.replicate_succ]
  · have h2 : Lex ⟨0, .doc 0⟩ " VECC contributions to the W operator\n    ".toList [] ⟨0, .doc 0⟩ := lex_doc _ 0 (by simp [String.toList_append])
    have h3 : Lex ⟨0, .doc 0⟩ "\"f".toList [] ⟨0, .doc 0⟩ := rfl
    have h4 : Lex ⟨0, .doc 0⟩ ("or use in the calculation of the residuals.\n    " ++
      "Uses optimized summation paths generate using `contract_expression` from the `opt_einsum` library.\n    ").toList [] ⟨0, .doc 0⟩ := lex_doc _ 0 (by simp [String.toList_append])
    refine code_docText (h0.append (h1.append (h2.append (h3.append h4)))) ?_
    simp [contributionsDoc, String.toList_append, toList_tabs, List.replicate_succ]

/-- the function can be read -/
def Reading.GoodContributions {ι : Type} (r : Reading ι) (c : WContributions ι) : Prop := ∀ bs, c.blocks = some bs → c.unpacked ≠ [] ∧ ∀ b ∈ bs, r.GoodBlock b

theorem code_raise (kind : Kind) : Code 4 (raiseLines kind) (raiseAst kind) := by
  cases kind <;> exact code_reads (by decide +kernel)

theorem code_ret : Code 4 [tabs 1 ++ "return"] [.ret none] := Code.lines (t := [.word "return".toList]) rfl (flat_of rfl) rfl rfl

theorem code_unpackNote : Code 4 [tabs 1 ++ "# unpack the `t_args`"] [] := code_comment (n := 1) (w := " unpack the `t_args`".toList) (by simp [String.toList_append]) (by decide)

theorem code_contributions {ι : Type} (r : Reading ι) (kind : Kind) (opt : Bool) (order : Nat) {c : WContributions ι} (h : r.GoodContributions c) :
    Code 0 (contributionLines r.text kind opt order c) [contributionsAst r kind opt order c] := by
  unfold contributionLines contributionsAst contributionsBody
  refine Code.cons_blank (Code.defn (k := 0) (k' := 4) (by omega) (lex_contributionsHead kind opt order) (flat_contributions kind opt order) (head_contributions kind opt order) ?_ ?_)
  · cases hb : c.blocks with
    | none => exact code_raise kind
    | some bs =>
      obtain ⟨h1, h2⟩ := h bs hb
      have hi : Code 4 (if opt then [tabs 1 ++ "# make an iterable out of the `opt_path_list`", tabs 1 ++ "optimized_einsum = iter(opt_path_list)"] else [])
          (if opt then [iterAst] else []) := by
        cases opt
        · exact Code.nil 4
        · exact Code.append (a := [_]) (s := []) (code_comment (n := 1) (w := " make an iterable out of the `opt_path_list`".toList) (by simp [String.toList_append]) (by decide))
            (Code.lines (t := [.word "optimized_einsum".toList, .sym '=', .word "iter".toList, .sym '(', .word "opt_path_list".toList, .sym ')']) rfl (flat_of rfl) rfl rfl)
      have hbs : Code 4 (bs.flatMap (WBlock.lines r.text order)) (bs.map (r.blockAst order)) := by
        rw [List.map_eq_flatMap]
        exact Code.flatMap fun b hb => r.code_block (h2 b hb)
      have := ((((code_contributionsDoc kind opt order).append (Code.append (s := []) code_unpackNote (code_unpack h1))).append hi).append hbs).append code_ret
      exact this
  · cases c.blocks with
    | none => cases kind <;> simp [raiseAst]
    | some bs => simp

end TF.W
