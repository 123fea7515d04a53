import Verif.Lemmas.ETSourceModule
import Verif.Lemmas.WSource
import Verif.Model.FullCC.Text

/-!
# The text of a generated full-CC module, read as Python: programs
-/

namespace TF.CC

open TF.Py TF.Spec.Source
open TF.ETPy (Shifts)
open TF.W (Reading)

/-! ## The items -/

/-- the product in the notation of the e^T modules -/
def Einsum.plain (e : Einsum) : ETPy.Einsum :=
  ⟨e.subs, 'a' :: 'b' :: e.out, ⟨"h_args", e.h.1, e.h.2⟩ :: e.ts.map fun k => ⟨"t_args", k.1, k.2⟩⟩

theorem renderArg_plain (name : String) (k : Nat × Nat) : renderArg name k = (⟨name ++ "_args", k.1, k.2⟩ : ETPy.Operand).render := by
  unfold renderArg ETPy.Operand.render
  rw [show ("_args[(" : String) = "_args" ++ "[(" from rfl, ← String.append_assoc]

theorem renderOperands_plain (h : Nat × Nat) {ts : List (Nat × Nat)} (hne : ts ≠ []) : renderOperands h ts =
    ", ".intercalate (((⟨"h_args", h.1, h.2⟩ : ETPy.Operand) :: ts.map fun k => ⟨"t_args", k.1, k.2⟩).map ETPy.Operand.render) := by
  obtain ⟨t, ts, rfl⟩ := List.exists_cons_of_ne_nil hne
  unfold renderOperands
  have e : ∀ l : List (Nat × Nat), l.map (renderArg "t") = (l.map fun k => (⟨"t_args", k.1, k.2⟩ : ETPy.Operand)).map ETPy.Operand.render := by
    intro l
    rw [List.map_map]
    exact List.map_congr_left fun k _ => renderArg_plain "t" k
  rw [e, renderArg_plain]
  simp only [List.map_cons, String.intercalate_cons_cons]
  rfl

theorem render_plain {e : Einsum} (hne : e.ts ≠ []) : e.render = e.plain.render := by
  have he : ETPy.Einsum.render e.plain = "np.einsum('" ++ ", ".intercalate (e.subs.map String.ofList) ++ " -> " ++ String.ofList ('a' :: 'b' :: e.out) ++ "', " ++
    ", ".intercalate (e.plain.operands.map ETPy.Operand.render) ++ ")" := rfl
  rw [he]
  unfold Einsum.render
  rw [renderOperands_plain e.h hne]
  apply String.toList_injective
  simp [String.toList_append, Einsum.plain]

/-- how the products are read -/
def einsumReading : Reading Einsum where
  text := Einsum.render
  toks e := ETPy.einsumToks e.plain
  expr e := ETPy.einsumExpr e.plain
  atom e := ETPy.einsum_atom e.plain
  flat e := ETPy.flat_einsum e.plain

theorem einsum_good {e : Einsum} (hne : e.ts ≠ []) (h1 : ∀ s ∈ e.subs, ∀ c ∈ s, isWord c = true) (h2 : ∀ c ∈ e.out, isWord c = true) : einsumReading.Good e := by
  intro d
  show Lex _ e.render.toList _ _
  rw [render_plain hne]
  refine ETPy.lex_einsum ⟨?_, by simp [Einsum.plain], h1, ?_⟩ d
  · intro o ho
    rcases List.mem_cons.1 ho with rfl | ho
    · exact (word_lit (by decide) : Word "h_args".toList)
    · obtain ⟨k, _, rfl⟩ := List.mem_map.1 ho
      exact (word_lit (by decide) : Word "t_args".toList)
  · intro c hc
    rcases List.mem_cons.1 hc with rfl | hc
    · rfl
    · rcases List.mem_cons.1 hc with rfl | hc
      · rfl
      · exact h2 c hc

/-- the operands of a call -/
def OptCall.operands (e : OptCall) : List ETPy.Operand := ⟨"h_args", e.h.1, e.h.2⟩ :: e.ts.map fun k => ⟨"t_args", k.1, k.2⟩

theorem operands_word {o : ETPy.Operand} (h : o.name = "h_args" ∨ o.name = "t_args") : Word o.name.toList := by
  rcases h with h | h <;> rw [h] <;> exact word_lit (by decide)

def optToks (e : OptCall) : List Tok :=
  ([.word "next".toList] ++ .sym '(' :: ([.word "optimized_einsum".toList] ++ [.sym ')'])) ++
    .sym '(' :: ((ETPy.operandToks ⟨"h_args", e.h.1, e.h.2⟩ ++ (e.ts.map fun k => (⟨"t_args", k.1, k.2⟩ : ETPy.Operand)).flatMap fun o => .sym ',' :: ETPy.operandToks o) ++ [.sym ')'])

def optExpr (e : OptCall) : Expr := .call (.call (nameExpr "next") [nameExpr "optimized_einsum"]) (e.operands.map ETPy.operandExpr)

/-- how the optimised calls are read -/
def optReading : Reading OptCall where
  text := OptCall.render
  toks := optToks
  expr := optExpr
  atom e := by
    have h1 := (ETPy.operand_atom ⟨"h_args", e.h.1, e.h.2⟩).item.args.snocs (e.ts.map fun k => (⟨"t_args", k.1, k.2⟩ : ETPy.Operand)) ETPy.operandToks ETPy.operandExpr
      fun o _ => (ETPy.operand_atom o).item
    exact ((Atom.word "next".toList).call (Atom.word "optimized_einsum".toList).item.args).call h1
  flat e := by
    unfold optToks
    refine Flat.append (flat_of rfl) (Flat.cons (by simp) (Flat.append (Flat.append (ETPy.flat_operand _) (Flat.flatMap fun o _ => ?_)) (flat_of rfl)))
    exact Flat.cons (by simp) (ETPy.flat_operand o)

theorem opt_good {e : OptCall} (hne : e.ts ≠ []) : optReading.Good e := by
  intro d
  show Lex _ e.render.toList _ _
  unfold OptCall.render
  rw [renderOperands_plain e.h hne]
  have h1 : Lex ⟨d, .plain⟩ "next(optimized_einsum)(".toList [.word "next".toList, .sym '(', .word "optimized_einsum".toList, .sym ')', .sym '('] ⟨d + 1, .plain⟩ := rfl
  have h4 := lex_commas (d + 1) ETPy.Operand.render ETPy.operandToks (⟨"h_args", e.h.1, e.h.2⟩ : ETPy.Operand) (e.ts.map fun k => (⟨"t_args", k.1, k.2⟩ : ETPy.Operand)) fun x hx => by
    refine ETPy.lex_operand (operands_word ?_) (d + 1)
    rcases List.mem_cons.1 hx with rfl | hx
    · exact Or.inl rfl
    · obtain ⟨k, _, rfl⟩ := List.mem_map.1 hx
      exact Or.inr rfl
  have h5 : Lex ⟨d + 1, .plain⟩ ")".toList [.sym ')'] ⟨d, .plain⟩ := rfl
  refine (h1.append (h4.append h5)).cast ?_ ?_
  · simp only [String.toList_append, List.append_assoc]
  · simp [optToks, optReading]

/-- the tokens of a shape -/
def shapesToks (k : Nat) : List Tok := .sym '(' :: ((.word "A".toList :: .sym ',' :: shapeToks "A" k) ++ [.sym ')'])

def shapeExpr (k : Nat) : Expr := .tuple (nameExpr "A" :: nameExpr "A" :: List.replicate k (nameExpr "N"))

theorem shape_args (k : Nat) : Args (.word "A".toList :: .sym ',' :: shapeToks "A" k) (nameExpr "A" :: nameExpr "A" :: List.replicate k (nameExpr "N")) := by
  have h := (((Atom.word "A".toList).item.args).snoc (Atom.word "A".toList).item).snocs (List.replicate k ()) (fun _ => [.word "N".toList]) (fun _ => nameExpr "N")
    fun _ _ => (Atom.word "N".toList).item
  rw [List.map_replicate] at h
  simpa [shapeToks, nameExpr] using h

theorem shape_atom (k : Nat) : Atom (shapesToks k) (shapeExpr k) := (shape_args k).group

theorem lex_shapeA (d k : Nat) : Lex ⟨d + 1, .plain⟩ ((", ".intercalate ("A" :: "A" :: List.replicate k "N")).toList ++ [')'])
    (.word "A".toList :: .sym ',' :: (shapeToks "A" k ++ [.sym ')'])) ⟨d, .plain⟩ := by
  have h2 : Lex ⟨d + 1, .plain⟩ "A, ".toList [.word "A".toList, .sym ','] ⟨d + 1, .plain⟩ := rfl
  refine (h2.append (lex_shape d k "A" (word_lit (by decide)))).cast ?_ (by simp)
  rw [String.intercalate_cons_cons]
  simp [String.toList_append]

theorem lex_shapes (k d : Nat) : Lex ⟨d, .plain⟩ (renderShape k).toList (shapesToks k) ⟨d, .plain⟩ := by
  have h1 : Lex ⟨d, .plain⟩ "(".toList [.sym '('] ⟨d + 1, .plain⟩ := rfl
  refine (h1.append (lex_shapeA d k)).cast ?_ (by simp [shapesToks])
  simp [renderShape, String.toList_append]

def pathToks (p : Path) : List Tok :=
  match p.shapes with
  | [] => []
  | s :: l => [.word "oe".toList, .sym '.', .word "contract_expression".toList] ++ .sym '(' :: ((shapesToks s ++ l.flatMap fun k => .sym ',' :: shapesToks k) ++ [.sym ')'])

def pathExpr (p : Path) : Expr := .call (.attr (nameExpr "oe") "contract_expression".toList) (p.shapes.map shapeExpr)

theorem path_atom {p : Path} (h : p.shapes ≠ []) : Atom (pathToks p) (pathExpr p) := by
  obtain ⟨s, l, hs⟩ := List.exists_cons_of_ne_nil h
  unfold pathToks pathExpr
  rw [hs]
  have h1 := ((shape_atom s).item.args).snocs l shapesToks shapeExpr fun k _ => (shape_atom k).item
  exact ((Atom.word "oe".toList).attr "contract_expression".toList).call h1

theorem flat_shapes (k : Nat) : Flat (shapesToks k) := by
  unfold shapesToks shapeToks
  refine Flat.cons (by simp) (Flat.append (Flat.cons (by simp) (Flat.cons (by simp) (Flat.cons (by simp) (Flat.flatMap fun _ _ => flat_of rfl)))) (flat_of rfl))

theorem flat_path (p : Path) : Flat (pathToks p) := by
  unfold pathToks
  split
  · exact flat_of rfl
  · exact Flat.append (flat_of rfl) (Flat.cons (by simp) (Flat.append (Flat.append (flat_shapes _) (Flat.flatMap fun k _ => Flat.cons (by simp) (flat_shapes k))) (flat_of rfl)))

theorem lex_path {p : Path} (h : p.shapes ≠ []) (d : Nat) : Lex ⟨d, .plain⟩ p.render.toList (pathToks p) ⟨d, .plain⟩ := by
  obtain ⟨s, l, hs⟩ := List.exists_cons_of_ne_nil h
  unfold Path.render pathToks
  rw [hs]
  have h1 : Lex ⟨d, .plain⟩ "oe.contract_expression(".toList [.word "oe".toList, .sym '.', .word "contract_expression".toList, .sym '('] ⟨d + 1, .plain⟩ := rfl
  have h4 := lex_commas (d + 1) renderShape shapesToks s l fun x _ => lex_shapes x (d + 1)
  have h5 : Lex ⟨d + 1, .plain⟩ ")".toList [.sym ')'] ⟨d, .plain⟩ := rfl
  refine (h1.append (h4.append h5)).cast ?_ (by simp)
  simp only [String.toList_append, List.append_assoc]

theorem path_noEq (p : Path) : Tok.sym '=' ∉ pathToks p := by
  have hs : ∀ k, Tok.sym '=' ∉ shapesToks k := by
    intro k hk
    simp [shapesToks, shapeToks] at hk
  unfold pathToks
  split
  · simp
  · intro h
    simp only [List.mem_append, List.mem_cons, List.mem_flatMap, List.not_mem_nil, or_false] at h
    rcases h with h | h | (h | ⟨k, _, h | h⟩) | h
    · revert h; decide
    · revert h; decide
    · exact hs _ h
    · revert h; decide
    · exact hs _ h
    · revert h; decide

/-! ## Prefactors -/

/-- the product of the factorials in a prefactor -/
def factorsExpr (l : List Nat) : Expr := if l = [] then nameExpr "1" else W.denomExpr l

def factorsToks (l : List Nat) : List Tok :=
  match l with
  | [] => [.word "1".toList]
  | n :: l => .sym '(' :: ((W.factToks n ++ l.flatMap fun n => .sym '*' :: W.factToks n) ++ [.sym ')'])

theorem factors_atom (l : List Nat) : Atom (factorsToks l) (factorsExpr l) := by
  unfold factorsToks factorsExpr
  split
  · exact Atom.word _
  · rename_i n l
    rw [if_neg (List.cons_ne_nil _ _)]
    have := W.facts_term l _ _ (W.fact_atom n).term
    exact this.item.args.group

theorem flat_factors (l : List Nat) : Flat (factorsToks l) := by
  unfold factorsToks
  split
  · exact flat_of rfl
  · exact Flat.cons (by simp) (Flat.append (Flat.append (W.flat_fact _) (Flat.flatMap fun x _ => Flat.cons (by simp) (W.flat_fact x))) (flat_of rfl))

theorem lex_factors (l : List Nat) (d : Nat) {s : List Char} {t : List Tok} {s' : St} (hs : Lex ⟨d, .plain⟩ s t s') (hw : Lex ⟨d, .word "1".toList⟩ s (.word "1".toList :: t) s') :
    Lex ⟨d, .plain⟩ ((renderPyFactors l).toList ++ s) (factorsToks l ++ t) s' := by
  unfold renderPyFactors factorsToks
  match l with
  | [] =>
    rw [if_pos rfl]
    exact (lex_word_then (w := "1".toList) (word_lit (by decide)) hw).cast rfl (by simp)
  | n :: l =>
    rw [if_neg (List.cons_ne_nil _ _)]
    have h1 : Lex ⟨d, .plain⟩ "(".toList [.sym '('] ⟨d + 1, .plain⟩ := rfl
    have hm : Lex ⟨d + 1, .plain⟩ " * ".toList [.sym '*'] ⟨d + 1, .plain⟩ := rfl
    have h2 := lex_seps hm W.factString W.factToks n l fun x _ => W.lex_fact x (d + 1)
    have h4 : Lex ⟨d + 1, .plain⟩ ")".toList [.sym ')'] ⟨d, .plain⟩ := rfl
    refine (h1.append (h2.append (h4.append hs))).cast ?_ (by simp)
    simp only [String.toList_append, List.append_assoc]
    rfl

def prefToks (p : List Nat × List Nat) : List Tok :=
  if renderPyFactors p.1 = "1" ∧ renderPyFactors p.2 = "1" then [] else factorsToks p.1 ++ .sym '/' :: (factorsToks p.2 ++ [.sym '*'])

theorem lex_pref (p : List Nat × List Nat) (d : Nat) : Lex ⟨d, .plain⟩ (renderPyPrefactor p).toList (prefToks p) ⟨d, .plain⟩ := by
  unfold renderPyPrefactor prefToks
  split
  · exact Lex.nil _
  · have h3 : Lex ⟨d, .plain⟩ " * ".toList [.sym '*'] ⟨d, .plain⟩ := rfl
    have h3' : Lex ⟨d, .word "1".toList⟩ " * ".toList [.word "1".toList, .sym '*'] ⟨d, .plain⟩ := rfl
    have h2 := lex_factors p.2 d h3 h3'
    have h1 : Lex ⟨d, .plain⟩ "/".toList [.sym '/'] ⟨d, .plain⟩ := rfl
    have h1' : Lex ⟨d, .word "1".toList⟩ "/".toList [.word "1".toList, .sym '/'] ⟨d, .plain⟩ := rfl
    have := lex_factors p.1 d (h1.append h2) (h1'.append h2)
    refine this.cast ?_ (by simp)
    simp [String.toList_append]

theorem flat_pref (p : List Nat × List Nat) : Flat (prefToks p) := by
  unfold prefToks
  split
  · exact flat_of rfl
  · exact Flat.append (flat_factors _) (Flat.cons (by simp) (Flat.append (flat_factors _) (flat_of rfl)))

/-- the lists of factorials in the text of a prefactor -/
noncomputable def prefOf (s : String) : List Nat × List Nat := open Classical in if h : ∃ p, renderPyPrefactor p = s then h.choose else ([], [])

theorem prefOf_render {s : String} (h : ∃ p, renderPyPrefactor p = s) : renderPyPrefactor (prefOf s) = s := by
  unfold prefOf
  rw [dif_pos h]
  exact h.choose_spec

/-! ## Sums -/

/-- what is added: `text * (item + item + ..)` -/
noncomputable def groupExpr {ι : Type} (r : Reading ι) (g : String × List ι) : Expr :=
  if g.1 = "" then r.sumExpr g.2 else .prod [(false, factorsExpr (prefOf g.1).1), (true, factorsExpr (prefOf g.1).2), (false, r.sumExpr g.2)]

noncomputable def groupAst {ι : Type} (r : Reading ι) (g : String × List ι) : Spec.Source.Stmt := .add "R".toList (groupExpr r g)

/-- the sum can be read -/
structure GoodGroup {ι : Type} (r : Reading ι) (g : String × List ι) : Prop where
  pref : ∃ p, renderPyPrefactor p = g.1
  ne : g.2 ≠ []
  items : ∀ i ∈ g.2, r.Good i ∧ r.text i ≠ "" ∧ ∀ w x, r.expr i ≠ .kw w x

def sumToks {ι : Type} (r : Reading ι) (l : List ι) : List Tok :=
  match l with
  | [i] => r.toks i
  | l => .sym '(' :: (r.sumToks l ++ [.sym ')'])

theorem sum_atom {ι : Type} (r : Reading ι) {l : List ι} (h : l ≠ []) : Atom (sumToks r l) (r.sumExpr l) := by
  match l, h with
  | [i], _ => exact r.atom i
  | i :: j :: l, _ => exact r.sum_atom (List.cons_ne_nil _ _)

theorem flat_sum {ι : Type} (r : Reading ι) (l : List ι) : Flat (sumToks r l) := by
  unfold sumToks
  split
  · exact r.flat _
  · exact Flat.cons (by simp) (Flat.append (r.flat_sum _) (flat_of rfl))

theorem pref_empty {p : List Nat × List Nat} : renderPyPrefactor p = "" ↔ (renderPyFactors p.1 = "1" ∧ renderPyFactors p.2 = "1") := by
  unfold renderPyPrefactor
  constructor
  · intro h
    by_contra hn
    rw [if_neg hn] at h
    exact append_ne (by decide) h
  · intro h
    rw [if_pos h]

theorem group_item {ι : Type} {r : Reading ι} {g : String × List ι} (h : GoodGroup r g) : Item (prefToks (prefOf g.1) ++ sumToks r g.2) (groupExpr r g) := by
  have hp := prefOf_render h.pref
  unfold prefToks groupExpr
  by_cases he : g.1 = ""
  · rw [if_pos he, if_pos (pref_empty.1 (hp.trans he))]
    exact (sum_atom r h.ne).item
  · rw [if_neg he, if_neg (fun h' => he (hp.symm.trans (pref_empty.2 h')))]
    have := (((factors_atom (prefOf g.1).1).term.mul (factors_atom (prefOf g.1).2) true).mul (sum_atom r h.ne) false).item
    simpa [Spec.Source.one] using this

theorem group_kw {ι : Type} {r : Reading ι} {g : String × List ι} (h : GoodGroup r g) (w : List Char) (x : Expr) : groupExpr r g ≠ .kw w x := by
  unfold groupExpr
  split
  · have hi := h.items
    have hne := h.ne
    unfold Reading.sumExpr
    match hg : g.2, hne with
    | [i], _ =>
      simp only [List.map_cons, List.map_nil, Spec.Source.one]
      exact (hi i (by rw [hg]; simp)).2.2 w x
    | i :: j :: l, _ => simp [Spec.Source.one]
  · simp

/-- the lines inside the brackets -/
theorem lex_items {ι : Type} (r : Reading ι) (k : Nat) : ∀ (c : ι) (cs : List ι), (∀ x ∈ c :: cs, r.Good x) →
    Lex ⟨1, .plain⟩ (((((c :: cs).map r.text).dropLast.map fun s => tabs (k + 1) ++ s ++ " +") ++ [tabs (k + 1) ++ ((c :: cs).map r.text).getLastD ""]).flatMap fun s => s.toList ++ ['\n'])
      (r.sumToks (c :: cs)) ⟨1, .plain⟩ := by
  intro c cs h
  have := r.lex_lines k c cs h
  refine this.cast ?_ rfl
  congr 1
  congr 1
  · rw [← List.map_dropLast, List.map_map]
    rfl
  · rcases List.eq_nil_or_concat (c :: cs) with e | ⟨l, b, e⟩
    · simp at e
    · rw [e]
      simp

theorem code_group {ι : Type} {r : Reading ι} {g : String × List ι} (h : GoodGroup r g) (k : Nat) : Code (4 * k) (accumulate k (g.1, g.2.map r.text)) [groupAst r g] := by
  have hp := prefOf_render h.pref
  refine Code.lines (t := .word "R".toList :: .sym '+' :: .sym '=' :: (prefToks (prefOf g.1) ++ sumToks r g.2)) ?_
    (Flat.cons (by simp) (Flat.cons (by simp) (Flat.cons (by simp) (Flat.append (flat_pref _) (flat_sum r _))))) (head_add (by decide) (expr_item (group_item h) (group_kw h))) rfl
  have h0 : Lex ⟨0, .start (4 * k)⟩ "R += ".toList [.line (4 * k), .word "R".toList, .sym '+', .sym '='] ⟨0, .plain⟩ := rfl
  have h1 := (lex_tabs k 0).append (h0.append (lex_pref (prefOf g.1) 0))
  rw [hp] at h1
  unfold LexLines accumulate
  have hi := h.items
  match hg : g.2, h.ne with
  | [i], _ =>
    rw [hg] at hi
    have h2 := h1.append (((hi i (by simp)).1 0).append (show Lex ⟨0, .plain⟩ ['\n'] [] ⟨0, .start 0⟩ from rfl))
    exact h2.cast (by simp [String.toList_append]) (by simp [sumToks])
  | i :: j :: l, _ =>
    rw [hg] at hi
    have h2 : Lex ⟨0, .plain⟩ "(\n".toList [.sym '('] ⟨1, .plain⟩ := rfl
    have h3 := lex_items r k i (j :: l) fun x hx => (hi x hx).1
    have h4 : Lex ⟨1, .plain⟩ ")\n".toList [.sym ')'] ⟨0, .start 0⟩ := rfl
    refine (h1.append (h2.append (h3.append ((lex_tabs_plain k 1).append h4)))).cast ?_ (by simp [sumToks])
    simp only [List.map_cons, List.flatMap_append, List.flatMap_cons, List.flatMap_nil, String.toList_append, List.append_assoc, List.append_nil, List.cons_append]
    rfl

theorem getLastD_mem {l : List String} (h : l ≠ []) : l.getLastD "" ∈ l := by
  rcases List.eq_nil_or_concat l with rfl | ⟨l', b, rfl⟩
  · exact absurd rfl h
  · simp

/-- statements over several lines can be moved to the right -/
theorem shifts_several {k : Nat} {a b sep : String} (ha : a ≠ "") (hb : b ≠ "") (hs : sep ≠ "") {l : List String} (hl : ∀ s ∈ l, s ≠ "") (hne : l ≠ []) :
    Shifts ((tabs k ++ a) :: (((l.dropLast.map fun s => tabs (k + 1) ++ s ++ sep) ++ [tabs (k + 1) ++ l.getLastD ""]) ++ [tabs k ++ b]))
      ((tabs (2 + k) ++ a) :: (((l.dropLast.map fun s => tabs (2 + k + 1) ++ s ++ sep) ++ [tabs (2 + k + 1) ++ l.getLastD ""]) ++ [tabs (2 + k) ++ b])) := by
  refine Shifts.line ha ?_
  refine Shifts.append (Shifts.append ⟨?_, ?_⟩ ?_) ?_
  · intro x hx
    obtain ⟨s, _, rfl⟩ := List.mem_map.1 hx
    exact append_ne hs
  · rw [List.map_map]
    refine List.map_congr_left fun s _ => ?_
    simp only [Function.comp_apply, Nat.add_assoc 2 k 1, tabs_add 2 (k + 1), String.append_assoc]
  · exact Shifts.line (k := k + 1) (hl _ (getLastD_mem hne)) ⟨by simp, rfl⟩
  · exact Shifts.line hb ⟨by simp, rfl⟩

theorem shifts_accumulate (k : Nat) (p : String) {l : List String} (hl : ∀ s ∈ l, s ≠ "") : Shifts (accumulate k (p, l)) (accumulate (2 + k) (p, l)) := by
  unfold accumulate
  match l, hl with
  | [], _ => exact ⟨by simp, rfl⟩
  | [s], hl =>
    have := Shifts.line (k := k) (x := "R += " ++ p ++ s) (append_ne (hl s (by simp))) (a := []) (b := []) ⟨by simp, rfl⟩
    simpa only [String.append_assoc] using this
  | s :: t :: l, hl =>
    have := shifts_several (k := k) (a := "R += " ++ p ++ "(") (b := ")") (sep := " +") (append_ne (by decide)) (by decide) (by decide) hl (List.cons_ne_nil _ _)
    simpa only [String.append_assoc, List.cons_append, List.append_assoc] using this

/-! ## Lists of paths -/

/-- what is done with the list -/
def pathAst (name : String) (l : List Path) : Spec.Source.Stmt :=
  match l with
  | [p] => .expr (.call (.attr (nameExpr name) "append".toList) [pathExpr p])
  | l => .expr (.call (.attr (nameExpr name) "extend".toList) [.list (l.map pathExpr)])

/-- the lines inside the brackets -/
theorem lex_paths (k : Nat) : ∀ (c : Path) (cs : List Path), (∀ x ∈ c :: cs, x.shapes ≠ []) →
    Lex ⟨2, .plain⟩ (((((c :: cs).map Path.render).dropLast.map fun s => tabs (k + 1) ++ s ++ ",") ++ [tabs (k + 1) ++ ((c :: cs).map Path.render).getLastD ""]).flatMap fun s => s.toList ++ ['\n'])
      (pathToks c ++ cs.flatMap fun p => .sym ',' :: pathToks p) ⟨2, .plain⟩
  | c, [], h => by
    have h1 := (lex_tabs_plain (k + 1) 2).append ((lex_path (h c (by simp)) 2).append (show Lex ⟨2, .plain⟩ ['\n'] [] ⟨2, .plain⟩ from rfl))
    exact h1.cast (by simp) (by simp)
  | c, d :: cs, h => by
    have ih := lex_paths k d cs fun x hx => h x (by simp [List.mem_cons.1 hx])
    have h1 := (lex_tabs_plain (k + 1) 2).append ((lex_path (h c (by simp)) 2).append
      (show Lex ⟨2, .plain⟩ ",\n".toList [.sym ','] ⟨2, .plain⟩ from rfl))
    exact (h1.append ih).cast (by simp) (by simp)

theorem lex_dot {w : List Char} (h : w.all Char.isDigit = false) (d : Nat) : Lex ⟨d, .word w⟩ ['.'] [.word w, .sym '.'] ⟨d, .plain⟩ := by
  show run _ _ = _
  have hs : step ⟨d, .word w⟩ '.' = ([.word w, .sym '.'], ⟨d, .plain⟩) := by
    unfold step
    simp only [h]
    rfl
  simp only [run, hs, List.append_nil]

theorem code_paths {name : String} (hn : Word name.toList) (hd : name.toList.all Char.isDigit = false) (hk : ∀ w ∈ keywords, name.toList ≠ w.toList) {l : List Path} (hne : l ≠ []) (hl : ∀ p ∈ l, p.shapes ≠ [])
    (pref : String) (k : Nat) : Code (4 * k) (extendList name k (pref, l.map Path.render)) [pathAst name l] := by
  unfold extendList pathAst
  match l, hne with
  | [p], _ =>
    have hp := hl p (by simp)
    have ha : Item (.word name.toList :: ([.sym '.', .word "append".toList] ++ .sym '(' :: (pathToks p ++ [.sym ')']))) (.call (.attr (nameExpr name) "append".toList) [pathExpr p]) :=
      (((Atom.word name.toList).attr "append".toList).call (path_atom hp).item.args).item
    refine Code.lines (t := .word name.toList :: ([.sym '.', .word "append".toList] ++ .sym '(' :: (pathToks p ++ [.sym ')']))) ?_
      (Flat.cons (by simp) (Flat.append (flat_of rfl) (Flat.cons (by simp) (Flat.append (flat_path p) (flat_of rfl)))))
      (head_expr hk ?_ (expr_item ha (by simp))) rfl
    · have h1 := (lex_dot hd 0).append (show Lex ⟨0, .plain⟩ "append(".toList [.word "append".toList, .sym '('] ⟨1, .plain⟩ from rfl)
      have h2 : Lex ⟨1, .plain⟩ ")\n".toList [.sym ')'] ⟨0, .start 0⟩ := rfl
      refine ((lex_tabs k 0).append (ETPy.lex_start_word (k := 4 * k) hn (lex_word_then hn (h1.append ((lex_path hp 1).append h2))))).cast ?_ ?_
      · simp [String.toList_append]
      · simp
    · have := path_noEq p
      simp [this]
  | p :: q :: l, _ =>
    have hargs := ((path_atom (hl p (by simp))).item.args).snocs (q :: l) pathToks pathExpr fun x hx => (path_atom (hl x (List.mem_cons_of_mem _ hx))).item
    have ha : Item (.word name.toList :: ([.sym '.', .word "extend".toList] ++ .sym '(' :: ((.sym '[' :: ((pathToks p ++ (q :: l).flatMap fun x => .sym ',' :: pathToks x) ++ [.sym ']'])) ++ [.sym ')'])))
        (.call (.attr (nameExpr name) "extend".toList) [.list ((p :: q :: l).map pathExpr)]) :=
      (((Atom.word name.toList).attr "extend".toList).call hargs.list.item.args).item
    refine Code.lines (t := .word name.toList :: ([.sym '.', .word "extend".toList] ++ .sym '(' :: ((.sym '[' :: ((pathToks p ++ (q :: l).flatMap fun x => .sym ',' :: pathToks x) ++ [.sym ']'])) ++ [.sym ')']))) ?_
      (Flat.cons (by simp) (Flat.append (flat_of rfl) (Flat.cons (by simp) (Flat.append (Flat.cons (by simp) (Flat.append (Flat.append (flat_path p) (Flat.flatMap fun x _ => Flat.cons (by simp) (flat_path x))) (flat_of rfl))) (flat_of rfl)))))
      (head_expr hk ?_ (expr_item ha (by simp))) rfl
    · have h1 := (lex_dot hd 0).append (show Lex ⟨0, .plain⟩ "extend([\n".toList [.word "extend".toList, .sym '(', .sym '['] ⟨2, .plain⟩ from rfl)
      have h2 : Lex ⟨2, .plain⟩ "])\n".toList [.sym ']', .sym ')'] ⟨0, .start 0⟩ := rfl
      have h3 := lex_paths k p (q :: l) hl
      refine ((lex_tabs k 0).append (ETPy.lex_start_word (k := 4 * k) hn (lex_word_then hn (h1.append (h3.append ((lex_tabs_plain k 2).append h2)))))).cast ?_ ?_
      · simp only [List.map_cons, List.flatMap_append, List.flatMap_cons, List.flatMap_nil, String.toList_append, List.append_assoc, List.append_nil, List.cons_append]
        rfl
      · simp
    · have h1 := path_noEq
      simp only [List.mem_append, List.mem_cons, List.mem_flatMap, List.not_mem_nil, or_false]
      rintro (h | h | (h | (h | ⟨x, _, h | h⟩) | h) | h)
      · rcases h with h | h <;> revert h <;> simp
      all_goals first | exact h1 _ h | (revert h; simp)

theorem path_ne (p : Path) : p.render ≠ "" := append_ne (by decide)

theorem shifts_paths (name pref : String) (k : Nat) {l : List String} (hl : ∀ s ∈ l, s ≠ "") : Shifts (extendList name k (pref, l)) (extendList name (2 + k) (pref, l)) := by
  unfold extendList
  match l, hl with
  | [], _ => exact ⟨by simp, rfl⟩
  | [s], hl =>
    have := Shifts.line (k := k) (x := name ++ ".append(" ++ s ++ ")") (append_ne (by decide)) (a := []) (b := []) ⟨by simp, rfl⟩
    simpa only [String.append_assoc] using this
  | s :: t :: l, hl =>
    have := shifts_several (k := k) (a := name ++ ".extend([") (b := "])") (sep := ",") (append_ne (by decide)) (by decide) (by decide) hl (List.cons_ne_nil _ _)
    simpa only [String.append_assoc, List.cons_append, List.append_assoc] using this

end TF.CC
