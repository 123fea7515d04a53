import Verif.Lemmas.FullCC.Source

/-!
# The text of a generated full-CC module, read as Python: the lines of a program
-/

namespace TF.CC

set_option maxRecDepth 10000

open TF.Py TF.Spec.Source
open TF.ETPy (Shifts gate operandExpr)
open TF.W (Reading)

variable {ι : Type}

/-! ## Programs as statements -/

def cAst (ast : String × List ι → Spec.Source.Stmt) (c : CBlock ι) : Spec.Source.Stmt := .cond (gate (taylorTag.getD c.j "")) (c.groups.map ast) []

def hAst (ast : String × List ι → Spec.Source.Stmt) (b : HBlock ι) : Spec.Source.Stmt :=
  .cond (gate ("at_least_" ++ hamiltonianTag.getD b.i "")) (b.groups.map ast ++ b.cblocks.map (cAst ast)) []

def plusAst (a : Nat × Nat) : Spec.Source.Stmt := .add "R".toList (operandExpr ⟨"h_args", a.1, a.2⟩)

def stmtsOf (ast : String × List ι → Spec.Source.Stmt) (p : Program ι) : List Spec.Source.Stmt :=
  p.adds.map plusAst ++ p.groups.map ast ++ p.cblocks.map (cAst ast) ++ p.hblocks.map (hAst ast)

/-- the statements of a program -/
def progAst (ast : String × List ι → Spec.Source.Stmt) (p : Program ι) : List Spec.Source.Stmt := if (stmtsOf ast p).isEmpty then [.pass] else stmtsOf ast p

/-- blocks of a program that can be read -/
structure GoodC (G : String × List ι → Prop) (c : CBlock ι) : Prop where
  j : 1 ≤ c.j ∧ c.j ≤ 6
  ne : c.groups ≠ []
  groups : ∀ g ∈ c.groups, G g

structure GoodH (G : String × List ι → Prop) (b : HBlock ι) : Prop where
  i : 1 ≤ b.i ∧ b.i ≤ 5
  ne : b.groups ≠ [] ∨ b.cblocks ≠ []
  groups : ∀ g ∈ b.groups, G g
  cblocks : ∀ c ∈ b.cblocks, GoodC G c

/-- a program that can be read -/
structure GoodProgram (G : String × List ι → Prop) (p : Program ι) : Prop where
  groups : ∀ g ∈ p.groups, G g
  cblocks : ∀ c ∈ p.cblocks, GoodC G c
  hblocks : ∀ b ∈ p.hblocks, GoodH G b

/-! ## Lines -/

def groupLines (grp : Nat → String × List String → List String) (item : ι → String) (k : Nat) (l : List (String × List ι)) : List String :=
  l.flatMap fun g => grp k (g.1, g.2.map item)

def cLines (grp : Nat → String × List String → List String) (item : ι → String) (k : Nat) (c : CBlock ι) : List String :=
  (tabs k ++ "if truncation." ++ taylorTag.getD c.j "" ++ ":") :: groupLines grp item (k + 1) c.groups

def hLines (grp : Nat → String × List String → List String) (item : ι → String) (b : HBlock ι) : List String :=
  "" :: ("if truncation.at_least_" ++ hamiltonianTag.getD b.i "" ++ ":") :: (groupLines grp item 1 b.groups ++ b.cblocks.flatMap (cLines grp item 1))

def allLines (grp : Nat → String × List String → List String) (item : ι → String) (p : Program ι) : List String :=
  (p.adds.map fun a => "R += " ++ renderArg "h" a) ++ groupLines grp item 0 p.groups ++ p.cblocks.flatMap (cLines grp item 0) ++ p.hblocks.flatMap (hLines grp item)

theorem lines_eq (grp : Nat → String × List String → List String) (item : ι → String) (p : Program ι) :
    p.lines grp item = if (allLines grp item p).isEmpty then ["pass  # no valid terms here"] else allLines grp item p := rfl

/-- how the sums are written and read -/
structure Kind (grp : Nat → String × List String → List String) (item : ι → String) (ast : String × List ι → Spec.Source.Stmt) (G : String × List ι → Prop) : Prop where
  shifts : ∀ g, G g → ∀ k, Shifts (grp k (g.1, g.2.map item)) (grp (2 + k) (g.1, g.2.map item))
  code : ∀ g, G g → ∀ k, Code (4 * k) (grp k (g.1, g.2.map item)) [ast g]

variable {grp : Nat → String × List String → List String} {item : ι → String} {ast : String × List ι → Spec.Source.Stmt} {G : String × List ι → Prop}

theorem code_groups (K : Kind grp item ast G) {l : List (String × List ι)} (h : ∀ g ∈ l, G g) (k : Nat) : Code (4 * k) (groupLines grp item k l) (l.map ast) := by
  have := Code.flatMap (k := 4 * k) (l := l) (f := fun g => grp k (g.1, g.2.map item)) (g := fun g => [ast g]) fun g hg => K.code g (h g hg) k
  rwa [← List.map_eq_flatMap] at this

theorem shifts_groups (K : Kind grp item ast G) {l : List (String × List ι)} (h : ∀ g ∈ l, G g) (k : Nat) :
    Shifts (groupLines grp item k l) (groupLines grp item (2 + k) l) := Shifts.flatMap fun g hg => K.shifts g (h g hg) k

theorem taylor_word {j : Nat} (h : 1 ≤ j ∧ j ≤ 6) : Word (taylorTag.getD j "").toList := by
  obtain ⟨h1, h2⟩ := h
  interval_cases j <;> exact word_lit (by decide)

theorem hamiltonian_word {j : Nat} (h : 1 ≤ j ∧ j ≤ 5) : Word ("at_least_" ++ hamiltonianTag.getD j "").toList := by
  obtain ⟨h1, h2⟩ := h
  interval_cases j <;> exact word_lit (by decide)

theorem code_c (K : Kind grp item ast G) {c : CBlock ι} (h : GoodC G c) (k : Nat) : Code (4 * k) (cLines grp item k c) [cAst ast c] :=
  ETPy.code_gate (taylor_word h.j) (code_groups K h.groups (k + 1)) (by simpa using h.ne)

theorem shifts_c (K : Kind grp item ast G) {c : CBlock ι} (h : GoodC G c) (k : Nat) : Shifts (cLines grp item k c) (cLines grp item (2 + k) c) := by
  have := Shifts.line (k := k) (x := "if truncation." ++ taylorTag.getD c.j "" ++ ":") (append_ne (by decide)) (shifts_groups K h.groups (k + 1))
  simpa only [cLines, String.append_assoc, Nat.add_assoc] using this

theorem code_cs (K : Kind grp item ast G) {l : List (CBlock ι)} (h : ∀ c ∈ l, GoodC G c) (k : Nat) : Code (4 * k) (l.flatMap (cLines grp item k)) (l.map (cAst ast)) := by
  have := Code.flatMap (k := 4 * k) (l := l) (f := cLines grp item k) (g := fun c => [cAst ast c]) fun c hc => code_c K (h c hc) k
  rwa [← List.map_eq_flatMap] at this

theorem shifts_cs (K : Kind grp item ast G) {l : List (CBlock ι)} (h : ∀ c ∈ l, GoodC G c) (k : Nat) :
    Shifts (l.flatMap (cLines grp item k)) (l.flatMap (cLines grp item (2 + k))) := Shifts.flatMap fun c hc => shifts_c K (h c hc) k

theorem map_scope {a b : List String} (h : Shifts a b) : a.map scopeLine = b := h.indent

theorem code_h (K : Kind grp item ast G) {b : HBlock ι} (h : GoodH G b) : Code 8 ((hLines grp item b).map scopeLine) [hAst ast b] := by
  have hb := (code_groups K h.groups 3).append (code_cs K h.cblocks 3)
  have hg := ETPy.code_gate (k := 2) (hamiltonian_word h.i) hb (by
    rcases h.ne with h | h <;> simp [h])
  unfold hLines
  rw [List.map_cons, List.map_cons, List.map_append, map_scope (shifts_groups K h.groups 1), map_scope (shifts_cs K h.cblocks 1)]
  have e1 : scopeLine "" = "" := rfl
  have e2 : scopeLine ("if truncation.at_least_" ++ hamiltonianTag.getD b.i "" ++ ":") = tabs 2 ++ "if truncation." ++ ("at_least_" ++ hamiltonianTag.getD b.i "") ++ ":" := by
    unfold scopeLine
    rw [if_neg (append_ne (by decide))]
    rw [show ("if truncation.at_least_" : String) = "if truncation." ++ "at_least_" from rfl]
    simp only [String.append_assoc]
  rw [e1, e2]
  exact hg.cons_blank

theorem code_hs (K : Kind grp item ast G) {l : List (HBlock ι)} (h : ∀ b ∈ l, GoodH G b) : Code 8 ((l.flatMap (hLines grp item)).map scopeLine) (l.map (hAst ast)) := by
  rw [List.map_flatMap]
  have := Code.flatMap (k := 8) (l := l) (f := fun b => (hLines grp item b).map scopeLine) (g := fun b => [hAst ast b]) fun b hb => code_h K (h b hb)
  rwa [← List.map_eq_flatMap] at this

theorem code_plus (a : Nat × Nat) : Code 8 [scopeLine ("R += " ++ renderArg "h" a)] [plusAst a] := by
  have e : scopeLine ("R += " ++ renderArg "h" a) = tabs 2 ++ ("R += " ++ renderArg "h" a) := by
    unfold scopeLine
    rw [if_neg (append_ne ?_)]
    rw [renderArg_plain]
    exact append_ne (by decide)
  rw [e, renderArg_plain]
  refine Code.lines (t := .word "R".toList :: .sym '+' :: .sym '=' :: ETPy.operandToks ⟨"h_args", a.1, a.2⟩) ?_ ?_
    (head_add (by decide) (expr_item (ETPy.operand_atom _).item (by simp [operandExpr]))) rfl
  · have h0 : Lex ⟨0, .start 8⟩ "R += ".toList [.line 8, .word "R".toList, .sym '+', .sym '='] ⟨0, .plain⟩ := rfl
    have h1 := ETPy.lex_operand (o := ⟨"h_args", a.1, a.2⟩) (word_lit (by decide) : Word "h_args".toList) 0
    refine ((lex_tabs 2 0).append (h0.append (h1.append (show Lex ⟨0, .plain⟩ ['\n'] [] ⟨0, .start 0⟩ from rfl)))).cast ?_ (by simp)
    simp [String.toList_append]
  · exact Flat.cons (by simp) (Flat.cons (by simp) (Flat.cons (by simp) (ETPy.flat_operand _)))

theorem code_all (K : Kind grp item ast G) {p : Program ι} (h : GoodProgram G p) : Code 8 ((allLines grp item p).map scopeLine) (stmtsOf ast p) := by
  unfold allLines stmtsOf
  rw [List.map_append, List.map_append, List.map_append, map_scope (shifts_groups K h.groups 0), map_scope (shifts_cs K h.cblocks 0), List.map_map]
  exact (((Code.map fun a _ => code_plus a).append (code_groups K h.groups 2)).append (code_cs K h.cblocks 2)).append (code_hs K h.hblocks)

/-- The lines of a program. -/
theorem code_program (K : Kind grp item ast G) {p : Program ι} (h : GoodProgram G p) : Code 8 ((p.lines grp item).map scopeLine) (progAst ast p) := by
  have hall := code_all K h
  rw [lines_eq]
  unfold progAst
  by_cases he : stmtsOf ast p = []
  · have hl : allLines grp item p = [] := by
      unfold stmtsOf at he
      simp only [List.append_eq_nil_iff, List.map_eq_nil_iff] at he
      obtain ⟨⟨⟨h1, h2⟩, h3⟩, h4⟩ := he
      simp [allLines, groupLines, h1, h2, h3, h4]
    rw [he, hl]
    simp only [List.isEmpty_nil, if_true]
    exact Code.lines (t := [.word "pass".toList]) rfl (flat_of rfl) rfl rfl
  · have hl : allLines grp item p ≠ [] := by
      intro hl
      rw [hl] at hall
      exact he (Code.empty hall)
    rw [if_neg (by simpa using hl), if_neg (by simpa using he)]
    exact hall

theorem progAst_ne (p : Program ι) : progAst ast p ≠ [] := by
  unfold progAst
  split
  · simp
  · rename_i h
    simpa using h

/-- the sums of the default and the optimised functions -/
theorem kind_add (r : Reading ι) : Kind accumulate r.text (groupAst r) (GoodGroup r) where
  shifts g hg k := shifts_accumulate k g.1 fun s hs => by
    obtain ⟨i, hi, rfl⟩ := List.mem_map.1 hs
    exact (hg.items i hi).2.1
  code _ hg k := code_group hg k

/-- the lists of paths -/
def GoodPaths (g : String × List Path) : Prop := g.2 ≠ [] ∧ ∀ p ∈ g.2, p.shapes ≠ []

theorem kind_paths {name : String} (hn : Word name.toList) (hd : name.toList.all Char.isDigit = false) (hk : ∀ w ∈ keywords, name.toList ≠ w.toList) :
    Kind (extendList name) Path.render (fun g => pathAst name g.2) GoodPaths where
  shifts g _ k := shifts_paths name g.1 k fun s hs => by
    obtain ⟨i, _, rfl⟩ := List.mem_map.1 hs
    exact path_ne i
  code g hg k := code_paths hn hd hk hg.1 hg.2 g.1 k

end TF.CC
