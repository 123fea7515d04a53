import Verif.Lemmas.FullCC.SourceModule

/-!
# The text of a generated full-CC module, read as Python: the file
-/

namespace TF.CC

set_option maxRecDepth 10000

open TF.Py TF.Spec.Source
open TF.ETPy (showOp namedLine spacedNamedLine argToks operandExpr clean_showOp operandToks importAst)

/-! ## The functions that collect the paths -/

theorem key_args (k : Nat × Nat) : Args [.sym '(', .word (toString k.1).toList, .sym ',', .word (toString k.2).toList, .sym ')'] [keyExpr k] := by
  have h1 : Args [.word (toString k.1).toList, .sym ',', .word (toString k.2).toList] [.word (toString k.1).toList, .word (toString k.2).toList] :=
    (Atom.word _).item.args.snoc (Atom.word _).item
  exact h1.group.item.args

def dictToks (k : Nat × Nat) : List Tok :=
  .sym '{' :: ([.sym '(', .word (toString k.1).toList, .sym ',', .word (toString k.2).toList, .sym ')'] ++ .sym ':' ::
    ((.sym '[' :: (argToks (optNames.map fun nm => nm ++ "_opt_path_list") ++ [.sym ']'])) ++ [.sym '}']))

theorem dict_atom (k : Nat × Nat) : Atom (dictToks k) (.dict [keyExpr k, .list (optNames.map fun nm => nameExpr (nm ++ "_opt_path_list"))]) := by
  have h1 : Args [.word (toString k.1).toList, .sym ',', .word (toString k.2).toList] [.word (toString k.1).toList, .word (toString k.2).toList] :=
    (Atom.word _).item.args.snoc (Atom.word _).item
  have h2 := (args_words ("connected" ++ "_opt_path_list") ["linked" ++ "_opt_path_list", "unlinked" ++ "_opt_path_list"]).list.item
  exact Atom.dict h1.group.item h2

theorem code_dict (k : Nat × Nat) : Code 4 [tabs 1 ++ "return_dict = {",
     tabs 2 ++ "(" ++ toString k.1 ++ ", " ++ toString k.2 ++ "): [connected_opt_path_list, linked_opt_path_list, unlinked_opt_path_list]",
     tabs 1 ++ "}"] [.assign ["return_dict".toList] (.dict [keyExpr k, .list (optNames.map fun nm => nameExpr (nm ++ "_opt_path_list"))])] := by
  refine Code.lines (t := .word "return_dict".toList :: .sym '=' :: dictToks k) ?_ ?_ (head_assign (by decide) (expr_item (dict_atom k).item (by simp))) rfl
  · have h0 : Lex ⟨0, .start 4⟩ "return_dict = {\n".toList [.line 4, .word "return_dict".toList, .sym '=', .sym '{'] ⟨1, .plain⟩ := rfl
    have h1 : Lex ⟨1, .plain⟩ "(".toList [.sym '('] ⟨2, .plain⟩ := rfl
    have h2 : ∀ w, Lex ⟨2, .word w⟩ ", ".toList [.word w, .sym ','] ⟨2, .plain⟩ := fun _ => rfl
    have h3 : ∀ w, Lex ⟨2, .word w⟩ "): [connected_opt_path_list, linked_opt_path_list, unlinked_opt_path_list]\n".toList
      (.word w :: .sym ')' :: .sym ':' :: .sym '[' :: (argToks (optNames.map fun nm => nm ++ "_opt_path_list") ++ [.sym ']'])) ⟨1, .plain⟩ := fun _ => rfl
    have h4 : Lex ⟨1, .plain⟩ "}\n".toList [.sym '}'] ⟨0, .start 0⟩ := rfl
    refine ((lex_tabs 1 0).append (h0.append ((lex_tabs_plain 2 1).append (h1.append (lex_word_then (nat_word k.1) ((h2 _).append (lex_word_then (nat_word k.2)
      ((h3 _).append ((lex_tabs_plain 1 1).append h4))))))))).cast ?_ ?_
    · simp [String.toList_append]
    · simp [dictToks]
  · exact flat_of rfl

theorem optName_word {nm : String} (h : nm ∈ optNames) : Word (nm ++ "_opt_path_list").toList ∧ ∀ w ∈ keywords, (nm ++ "_opt_path_list").toList ≠ w.toList := by
  simp only [optNames, List.mem_cons, List.not_mem_nil, or_false] at h
  rcases h with rfl | rfl | rfl <;> exact ⟨word_lit (by decide), by decide⟩

theorem text_opPaths {o : Op} (ho : Clean o.name) : ∃ r, (opPathsText o).toList = '\n' :: r ∧ Text r [defAst (opPathsDef o, "")] := by
  have hdoc := code_docLine (s := "Compute the optimized paths for this " ++ showOp o ++ ".") (Clean.append (Clean.append ⟨by decide, by decide⟩ (clean_showOp ho)) ⟨by decide, by decide⟩)
  have hcalls : Code 4 (List.zipWith (fun ty nm => tabs 1 ++ nm ++ "_opt_path_list = " ++ typePathsName o ty ++ "(A, N, ansatz, truncation)") termTypes optNames)
      (List.zipWith (fun ty nm => .assign [(nm ++ "_opt_path_list").toList] (.call (nameExpr (typePathsName o ty)) (pathParams.map nameExpr))) termTypes optNames) := by
    have one : ∀ ty nm, ty ∈ termTypes → nm ∈ optNames → Code 4 [tabs 1 ++ nm ++ "_opt_path_list = " ++ typePathsName o ty ++ "(A, N, ansatz, truncation)"]
        [.assign [(nm ++ "_opt_path_list").toList] (.call (nameExpr (typePathsName o ty)) (pathParams.map nameExpr))] := by
      intro ty nm hty hnm
      have := code_assignCall (optName_word hnm).1 (optName_word hnm).2 (typePathsName_word o hty) args_path
      rw [show ", ".intercalate pathParams = "A, N, ansatz, truncation" from rfl] at this
      rw [show ("(A, N, ansatz, truncation)" : String) = "(" ++ "A, N, ansatz, truncation" ++ ")" from rfl,
        show ("_opt_path_list = " : String) = "_opt_path_list" ++ " = " from rfl]
      simpa only [String.append_assoc] using this
    exact (one _ _ mem_types.1 mem_names.1).append ((one _ _ mem_types.2.1 mem_names.2.1).append (one _ _ mem_types.2.2 mem_names.2.2))
  have hret : Code 4 [tabs 1 ++ "return return_dict"] [.ret (some (nameExpr "return_dict"))] := Code.lines (t := [.word "return".toList, .word "return_dict".toList]) rfl (flat_of rfl) rfl rfl
  have hbody := hdoc.append (code_singles.append ((hcalls.append (((code_dict (o.m, o.n)).append ((hret.append (Code.blank 4)).cons_blank)).cons_blank)).cons_blank))
  obtain ⟨r, e, t⟩ := text_open (code_defn (computeName_word o (word_lit (by decide) : Word "_optimized_paths".toList)) args_path hbody (by simp))
  refine ⟨r, ?_, ETPy.Text.cast t rfl ?_⟩
  · rw [← e]
    unfold opPathsText
    refine congrArg (fun l => ("\n".intercalate l).toList) ?_
    rw [show ", ".intercalate pathParams = "A, N, ansatz, truncation" from rfl]
    rw [show ("_optimized_paths(A, N, ansatz, truncation):" : String) = "_optimized_paths" ++ "(" ++ "A, N, ansatz, truncation" ++ "):" from rfl,
      show ("def compute_" : String) = "def " ++ "compute_" from rfl]
    simp only [List.cons_append, List.nil_append, List.append_assoc, String.append_assoc]
  · obtain ⟨a, b, c⟩ := typePathsName_lit o
    simp only [defAst, opPathsDef, defParams, defBody, termTypes, optNames, List.zipWith_cons_cons, List.zipWith_nil_left, a, b, c, List.cons_append, List.nil_append, List.append_assoc, List.append_nil]

theorem head_setItem {w : List Char} {l r : List Tok} {e v : Expr} {args : List Expr} (hk : ∀ k ∈ keywords, w ≠ k.toList) (hl : Tok.sym '=' ∉ l)
    (h1 : names (.word w :: .sym '[' :: l) = none) (h2 : starred (.word w :: .sym '[' :: l) = none) (he : expr (.word w :: .sym '[' :: l) = some (.index e args)) (hr : expr r = some v) :
    head ((.word w :: .sym '[' :: l) ++ .sym '=' :: r) = some (.simple (.setItem e args v)) := by
  have hall : ∀ y ∈ (Tok.word w :: .sym '[' :: l), decide (y ≠ .sym '=') = true := by
    intro y hy
    rcases List.mem_cons.1 hy with rfl | hy
    · rfl
    · rcases List.mem_cons.1 hy with rfl | hy
      · decide
      · have : y ≠ .sym '=' := fun h => hl (h ▸ hy)
        simpa using this
  have e1 : ((Tok.word w :: .sym '[' :: l) ++ .sym '=' :: r).takeWhile (fun x => decide (x ≠ .sym '=')) = .word w :: .sym '[' :: l := by
    rw [List.takeWhile_append_of_pos hall]
    simp
  have e2 : ((Tok.word w :: .sym '[' :: l) ++ .sym '=' :: r).dropWhile (fun x => decide (x ≠ .sym '=')) = .sym '=' :: r := by
    rw [List.dropWhile_append_of_pos hall]
    simp
  rw [List.cons_append, head_word hk, ← List.cons_append]
  unfold plainHead
  rw [e1, e2]
  simp [h1, h2, he, hr]

/-- `all_opt_path_lists[(m, n)] = compute_m.._n.._optimized_paths(..)[(m, n)]` -/
theorem code_entry (m n : Nat) : Code 4 [tabs 1 ++ "all_opt_path_lists" ++ ("[(" ++ toString m ++ ", " ++ toString n ++ ")]") ++ " = compute_m" ++ toString m ++ "_n" ++ toString n ++
        "_optimized_paths(A, N, ansatz, truncation)" ++ ("[(" ++ toString m ++ ", " ++ toString n ++ ")]")]
    [.setItem (nameExpr "all_opt_path_lists") [keyExpr (m, n)]
      (.index (.call (nameExpr ("compute_m" ++ toString m ++ "_n" ++ toString n ++ "_optimized_paths")) (pathParams.map nameExpr)) [keyExpr (m, n)])] := by
  have hf : Word ("compute_m" ++ toString m ++ "_n" ++ toString n ++ "_optimized_paths").toList :=
    word_str (word_str (word_str (word_str (word_lit (by decide)) (nat_word m)) (word_lit (by decide))) (nat_word n)) (word_lit (by decide))
  generalize hF : ("compute_m" ++ toString m ++ "_n" ++ toString n ++ "_optimized_paths") = f at hf
  have hk := key_args (m, n)
  have hl : Atom (operandToks ⟨"all_opt_path_lists", m, n⟩) (.index (nameExpr "all_opt_path_lists") [keyExpr (m, n)]) := (Atom.word "all_opt_path_lists".toList).index hk
  have hr := (call_atom f args_path).index hk
  refine Code.lines (t := operandToks ⟨"all_opt_path_lists", m, n⟩ ++ .sym '=' :: ((.word f.toList :: .sym '(' :: (argToks pathParams ++ [.sym ')'])) ++ .sym '[' ::
    ([.sym '(', .word (toString m).toList, .sym ',', .word (toString n).toList, .sym ')'] ++ [.sym ']']))) ?_ (flat_of rfl) ?_ rfl
  · have h0 := ETPy.lex_operand (o := ⟨"all_opt_path_lists", m, n⟩) (word_lit (by decide) : Word "all_opt_path_lists".toList) 0
    have h1 : Lex ⟨0, .plain⟩ " = ".toList [.sym '='] ⟨0, .plain⟩ := rfl
    have h2 := args_path.lex f.toList
    have h3 : Lex ⟨0, .plain⟩ "[(".toList [.sym '[', .sym '('] ⟨2, .plain⟩ := rfl
    have h4 : ∀ w, Lex ⟨2, .word w⟩ ", ".toList [.word w, .sym ','] ⟨2, .plain⟩ := fun _ => rfl
    have h5 : ∀ w, Lex ⟨2, .word w⟩ ")]\n".toList [.word w, .sym ')', .sym ']'] ⟨0, .start 0⟩ := fun _ => rfl
    have h6 := (h0.append (h1.append (lex_word_then hf (h2.append (h3.append (lex_word_then (nat_word m) ((h4 _).append (lex_word_then (nat_word n) (h5 _)))))))))
    have e0 : (⟨"all_opt_path_lists", m, n⟩ : ETPy.Operand).render.toList = "all_opt_path_lists".toList ++ ("[(" ++ toString m ++ ", " ++ toString n ++ ")]").toList := by
      simp [ETPy.Operand.render, String.toList_append]
    rw [e0, List.append_assoc] at h6
    refine ((lex_tabs 1 0).append (ETPy.lex_start_word (word_lit (by decide) : Word "all_opt_path_lists".toList) h6)).cast ?_ ?_
    · subst hF
      simp [String.toList_append, pathParams, show ", ".intercalate ["A", "N", "ansatz", "truncation"] = "A, N, ansatz, truncation" from rfl]
    · simp
  · have hne : ∀ w x, (Expr.index (nameExpr "all_opt_path_lists") [keyExpr (m, n)]) ≠ .kw w x := by simp
    have e1 := expr_item hl.item hne
    have e2 := expr_item hr.item (by simp)
    exact head_setItem (w := "all_opt_path_lists".toList) (by decide) (l := [.sym '(', .word (toString m).toList, .sym ',', .word (toString n).toList, .sym ')', .sym ']']) (by simp) rfl rfl e1 e2

theorem code_allDoc (cc : Nat) : Code 4 [tabs 1 ++ "\"\"\"Return dictionary containing optimized contraction paths.",
    tabs 1 ++ "Calculates all optimized paths for the `opt_einsum` calls up to",
    tabs 2 ++ "a maximum order of m+n=" ++ toString cc ++ " for a projection operator P^m_n",
    tabs 1 ++ "\"\"\""] [.doc] := by
  refine code_doc (w := ("Return dictionary containing optimized contraction paths.\n    Calculates all optimized paths for the `opt_einsum` calls up to\n        a maximum order of m+n=".toList ++
    ((toString cc).toList ++ " for a projection operator P^m_n\n    ".toList))) ?_ ?_
  · intro h
    rcases List.mem_append.1 h with h | h
    · revert h; decide
    · rcases List.mem_append.1 h with h | h
      · exact (clean_nat cc).1 h
      · revert h; decide
  · simp [String.toList_append, tabs]

theorem text_allPaths (cc : Nat) (os : List Op) : ∃ r, (allPathsText cc os).toList = '\n' :: r ∧ Text r [defAst (allPathsDef os, "")] := by
  have hinit : Code 4 [tabs 1 ++ "all_opt_path_lists = []"] [.assign ["all_opt_path_lists".toList] (.list [])] :=
    Code.lines (t := [.word "all_opt_path_lists".toList, .sym '=', .sym '[', .sym ']']) rfl (flat_of rfl) rfl rfl
  have hret : Code 4 [tabs 1 ++ "return all_opt_path_lists"] [.ret (some (nameExpr "all_opt_path_lists"))] :=
    Code.lines (t := [.word "return".toList, .word "all_opt_path_lists".toList]) rfl (flat_of rfl) rfl rfl
  have hall := Code.map (k := 4) (l := os) fun o _ => code_entry o.m o.n
  have hbody := (code_allDoc cc).append (hinit.append ((hall.append ((hret.append (Code.blank 4)).cons_blank)).cons_blank))
  obtain ⟨r, e, t⟩ := text_open (code_defn (word_lit (by decide) : Word "compute_all_optimized_paths".toList) args_path hbody (by simp))
  refine ⟨r, ?_, ETPy.Text.cast t rfl ?_⟩
  · rw [← e]
    unfold allPathsText
    refine congrArg (fun l => ("\n".intercalate l).toList) ?_
    rw [show ("def " ++ "compute_all_optimized_paths" ++ "(" ++ ", ".intercalate pathParams ++ "):" : String) = "def compute_all_optimized_paths(A, N, ansatz, truncation):" from rfl]
    simp only [List.cons_append, List.nil_append, List.append_assoc]
  · simp only [defAst, allPathsDef, defParams, defBody, List.map_map, Function.comp_def, List.cons_append, List.nil_append]

/-! ## The file -/

/-- a projection operator whose functions can be read -/
structure GoodOmega (c : OmegaCode) : Prop where
  name : Clean c.omega.name
  default : c.default.length = 3 ∧ ∀ p ∈ c.default, GoodProgram (GoodGroup einsumReading) p
  opt : c.opt.length = 3 ∧ ∀ p ∈ c.opt, GoodProgram (GoodGroup optReading) p
  paths : c.paths.length = 3 ∧ ∀ p ∈ c.paths, GoodProgram GoodPaths p

/-- texts that begin with an empty line -/
def Begins (l : String) (ss : List Spec.Source.Stmt) : Prop := ∃ r, l.toList = '\n' :: r ∧ Text r ss

theorem Begins.text {l : String} {ss : List Spec.Source.Stmt} (h : Begins l ss) : Text l.toList ss := by
  obtain ⟨r, e, t⟩ := h
  rw [e]
  exact text_blank.append t

theorem Begins.join {l : List String} {ss : List (List Spec.Source.Stmt)} (h : List.Forall₂ Begins l ss) (hne : l ≠ []) : Begins (String.join l) ss.flatten := by
  have hall : ∀ (l : List String) (ss : List (List Spec.Source.Stmt)), List.Forall₂ Begins l ss → Text (String.join l).toList ss.flatten := by
    intro l ss h
    induction h with
    | nil => exact Text.nil
    | cons h _ ih => rw [String.join_cons, String.toList_append, List.flatten_cons]; exact h.text.append ih
  cases h with
  | nil => exact absurd rfl hne
  | cons h hs =>
    obtain ⟨r, e, t⟩ := h
    refine ⟨r ++ (String.join _).toList, ?_, t.append (hall _ _ hs)⟩
    rw [String.join_cons, String.toList_append, e]
    rfl

theorem begins_adds {c : OmegaCode} (h : GoodOmega c) : Begins (String.join (addTexts c)) (((addDefs c).map (·, "")).map defAst) := by
  obtain ⟨a, b, d, e⟩ := List.length_eq_three.1 h.default.1
  have hg := h.default.2
  unfold addTexts addDefs
  rw [e] at hg ⊢
  exact Begins.join (ss := [[_], [_], [_]]) (.cons (text_add h.name mem_types.1 (hg _ (by simp))) (.cons (text_add h.name mem_types.2.1 (hg _ (by simp)))
    (.cons (text_add h.name mem_types.2.2 (hg _ (by simp))) .nil))) (by simp [termTypes])

theorem begins_addOpts {c : OmegaCode} (h : GoodOmega c) : Begins (String.join (addOptTexts c)) (((addOptDefs c).zip optNames).map defAst) := by
  obtain ⟨a, b, d, e⟩ := List.length_eq_three.1 h.opt.1
  have hg := h.opt.2
  unfold addOptTexts addOptDefs
  rw [e] at hg ⊢
  exact Begins.join (ss := [[_], [_], [_]]) (.cons (text_addOpt h.name mem_types.1 mem_names.1 (hg _ (by simp))) (.cons (text_addOpt h.name mem_types.2.1 mem_names.2.1 (hg _ (by simp)))
    (.cons (text_addOpt h.name mem_types.2.2 mem_names.2.2 (hg _ (by simp))) .nil))) (by simp [termTypes, optNames])

theorem begins_paths {c : OmegaCode} (h : GoodOmega c) : Begins (String.join (typePathsTexts c)) (((typePathsDefs c).zip termTypes).map defAst) := by
  obtain ⟨a, b, d, e⟩ := List.length_eq_three.1 h.paths.1
  have hg := h.paths.2
  unfold typePathsTexts typePathsDefs
  rw [e] at hg ⊢
  exact Begins.join (ss := [[_], [_], [_]]) (.cons (text_typePaths mem_types.1 (hg _ (by simp))) (.cons (text_typePaths mem_types.2.1 (hg _ (by simp)))
    (.cons (text_typePaths mem_types.2.2 (hg _ (by simp))) .nil))) (by simp [termTypes])

theorem text_wrapped {title label : String} (ht : Clean title) (hl : Clean label) {w : Nat} {fns : OmegaCode → List String} {defs : OmegaCode → List Spec.Source.Stmt} {F : List OmegaCode}
    (h : ∀ c ∈ F, Clean c.omega.name ∧ Begins (String.join (fns c)) (defs c)) : Text (wrapText title label w fns F).toList (F.flatMap defs) := by
  unfold wrapText
  rw [ETPy.toList_join, List.flatMap_map, ← ETPy.zip_flatMap defs F (Zhz.previous (F.map OmegaCode.omega)) (by simp [ETPy.length_previous])]
  refine Text.flatMap fun x hx => ?_
  obtain ⟨hn, r, e, t⟩ := h x.1 (List.of_mem_zip hx).1
  have h0 : Text (if x.1.omega.rank > x.2.rank then
      spacedNamedLine ("RANK " ++ (if x.1.omega.rank < 10 then " " else "") ++ toString x.1.omega.rank ++ " " ++ title) w 75 ++ "\n" else "").toList [] := by
    split
    · rw [String.toList_append]
      refine (ETPy.text_spaced ?_).append text_blank
      refine Clean.append (Clean.append (Clean.append (Clean.append ⟨by decide, by decide⟩ ?_) (clean_nat _)) ⟨by decide, by decide⟩) ht
      split <;> exact ⟨by decide, by decide⟩
    · exact Text.nil
  have hname : Clean (showOp x.1.omega ++ " " ++ label) := Clean.append (Clean.append (clean_showOp hn) ⟨by decide, by decide⟩) hl
  refine ETPy.Text.cast (h0.append (text_blank.append ((ETPy.text_named (w := w / 2) hname).append t))) ?_ rfl
  simp only [String.toList_append, e, List.append_assoc]
  rfl

theorem begins_ops {f : Op → String} {d : Op → String × Body} {F : List OmegaCode} (h : ∀ c ∈ F, Begins (f c.omega) [defAst (d c.omega, "")]) (hne : F ≠ []) :
    Begins (String.join ((F.map OmegaCode.omega).map f)) ((F.map fun c => (d c.omega, "")).map defAst) := by
  have := Begins.join (l := (F.map OmegaCode.omega).map f) (ss := F.map fun c => [defAst (d c.omega, "")]) (by
    rw [List.map_map, List.forall₂_map_left_iff, List.forall₂_map_right_iff, List.forall₂_same]
    exact h) (by simpa using hne)
  rwa [← List.flatMap_def, ← List.map_eq_flatMap, ← Function.comp_def, ← List.map_map] at this

/-- a title, what it heads, a second title and what that heads -/
theorem text_section {t1 t2 t3 : String} {w s w1 w2 : Nat} (h1 : Clean t1) (h2 : Clean t2) (h3 : Clean t3) {a b : String} {sa sb : List Spec.Source.Stmt}
    (ha : Text a.toList sa) (hb : Begins b sb) :
    Text (spacedNamedLine t1 w s ++ ("\n" ++ namedLine t2 w1 ++ "\n\n") ++ a ++ ("\n" ++ namedLine t3 w2) ++ b).toList (sa ++ sb) := by
  obtain ⟨r, e, t⟩ := hb
  refine ETPy.Text.cast ((ETPy.text_spaced (w := w) (s := s) h1).append (text_blank.append ((ETPy.text_named (w := w1) h2).append (text_blank.append (ha.append
    (text_blank.append ((ETPy.text_named (w := w2) h3).append t))))))) ?_ rfl
  simp only [String.toList_append, e, List.append_assoc]
  rfl

/-- The text of the file is the imports and the definitions. -/
theorem file_fileText (cc : Nat) {F : List OmegaCode} (hne : F ≠ []) (h : ∀ c ∈ F, GoodOmega c) :
    Spec.Source.file (fileText cc F).toList = some (importAst ++ (taggedDefs F).map defAst) := by
  refine Text.file ?_
  have s1 := text_section (w := 45) (s := 109) (w1 := 45) (w2 := 45) (t1 := "DEFAULT FUNCTIONS") (t2 := "INDIVIDUAL TERMS") (t3 := "RESIDUAL FUNCTIONS") ⟨by decide, by decide⟩ ⟨by decide, by decide⟩ ⟨by decide, by decide⟩
    (text_wrapped (title := "FUNCTIONS") (label := "TERMS") (w := 28) ⟨by decide, by decide⟩ ⟨by decide, by decide⟩ fun c hc => ⟨(h c hc).name, begins_adds (h c hc)⟩)
    (begins_ops (fun c hc => text_amplitude (h c hc).name) hne)
  have s2 := text_section (w := 44) (s := 109) (w1 := 45) (w2 := 45) (t1 := "OPTIMIZED FUNCTIONS") (t2 := "INDIVIDUAL TERMS") (t3 := "RESIDUAL FUNCTIONS") ⟨by decide, by decide⟩ ⟨by decide, by decide⟩ ⟨by decide, by decide⟩
    (text_wrapped (title := "FUNCTIONS") (label := "TERMS") (w := 28) ⟨by decide, by decide⟩ ⟨by decide, by decide⟩ fun c hc => ⟨(h c hc).name, begins_addOpts (h c hc)⟩)
    (begins_ops (fun c hc => text_amplitudeOpt (h c hc).name) hne)
  have s3 := text_section (w := 41) (s := 109) (w1 := 41) (w2 := 41) (t1 := "OPTIMIZED PATHS FUNCTIONS") (t2 := "INDIVIDUAL OPTIMIZED PATHS") (t3 := "GROUPED BY PROJECTION OPERATOR") ⟨by decide, by decide⟩ ⟨by decide, by decide⟩ ⟨by decide, by decide⟩
    (text_wrapped (title := "OPTIMIZED PATHS") (label := "OPTIMIZED PATHS") (w := 25) ⟨by decide, by decide⟩ ⟨by decide, by decide⟩ fun c hc => ⟨(h c hc).name, begins_paths (h c hc)⟩)
    (begins_ops (fun c hc => text_opPaths (h c hc).name) hne)
  obtain ⟨r, e, t⟩ := text_allPaths cc (F.map OmegaCode.omega)
  have hall := ETPy.text_imports.append (s1.append (s2.append (s3.append (text_blank.append ((ETPy.text_named (name := "MASTER OPTIMIZED PATH FUNCTION") (w := 41) ⟨by decide, by decide⟩).append
    (t.append (text_blank.append text_blank)))))))
  refine ETPy.Text.cast hall ?_ ?_
  · unfold fileText
    dsimp only
    simp only [String.toList_append, e, List.append_assoc]
    rfl
  · unfold taggedDefs
    simp only [List.map_append, List.map_flatMap, List.append_assoc, List.map_cons, List.map_nil, List.append_nil, List.nil_append]

end TF.CC
